import Verif.Props.ShiftLaws

/-!
# C133, C134: values assembled from parts

As in C65–C69 the laws are stated about the calls themselves.
-/

namespace Baa
open Res

/-! ## Arithmetic on pairs of bit-vectors -/

theorem toNat_append_eq {w v : Nat} (x : BitVec w) (y : BitVec v) : (x ++ y).toNat = 2 ^ v * x.toNat + y.toNat := by
  rw [BitVec.toNat_append, ← Nat.shiftLeft_add_eq_or_of_lt y.isLt, Nat.shiftLeft_eq, Nat.mul_comm]

theorem ofBool_carry {w : Nat} (hw : 0 < w) (c : Bool) : (if c then 1#w else 0#w).toNat = c.toNat := by
  cases c with
  | false => simp
  | true =>
    have : 1 < 2 ^ w := Nat.one_lt_two_pow (by omega)
    simp [Nat.mod_eq_of_lt this]

/-- Addition in two parts: the carry of the low parts goes into the high parts. -/
theorem append_add {w v : Nat} (hw : 0 < w) (x₁ y₁ : BitVec w) (x₀ y₀ : BitVec v) :
    (x₁ ++ x₀) + (y₁ ++ y₀) = (x₁ + y₁ + (if decide (2 ^ v ≤ x₀.toNat + y₀.toNat) then 1#w else 0#w)) ++ (x₀ + y₀) := by
  apply BitVec.eq_of_toNat_eq
  have hp := Nat.two_pow_pos v
  have h0 := x₀.isLt
  have h1 := y₀.isLt
  rw [BitVec.toNat_add, toNat_append_eq, toNat_append_eq, toNat_append_eq, BitVec.toNat_add, BitVec.toNat_add, BitVec.toNat_add,
    ofBool_carry hw, Nat.mod_add_mod, Nat.add_comm w v, Nat.pow_add, Nat.mod_mul,
    show 2 ^ v * x₁.toNat + x₀.toNat + (2 ^ v * y₁.toNat + y₀.toNat) = x₀.toNat + y₀.toNat + 2 ^ v * (x₁.toNat + y₁.toNat) by
      rw [Nat.mul_add]; omega,
    Nat.add_mul_mod_self_left, Nat.add_mul_div_left _ _ hp]
  have : (x₀.toNat + y₀.toNat) / 2 ^ v = (decide (2 ^ v ≤ x₀.toNat + y₀.toNat)).toNat := by
    by_cases h : 2 ^ v ≤ x₀.toNat + y₀.toNat
    · rw [decide_eq_true h, Nat.div_eq_of_lt_le (k := 1) (by omega) (by omega)]; rfl
    · rw [decide_eq_false h, Nat.div_eq_of_lt (by omega)]; rfl
  rw [this, Nat.add_comm, Nat.add_comm (decide _).toNat]

/-- Subtraction in two parts: the borrow of the low parts is taken from the high parts. -/
theorem append_sub {w v : Nat} (hw : 0 < w) (x₁ y₁ : BitVec w) (x₀ y₀ : BitVec v) :
    (x₁ ++ x₀) - (y₁ ++ y₀) = (x₁ - y₁ - (if decide (x₀.toNat < y₀.toNat) then 1#w else 0#w)) ++ (x₀ - y₀) := by
  symm
  rw [BitVec.eq_sub_iff_add_eq, append_add hw, BitVec.sub_add_cancel]
  have h0 := x₀.isLt
  have h1 := y₀.isLt
  have : decide (2 ^ v ≤ (x₀ - y₀).toNat + y₀.toNat) = decide (x₀.toNat < y₀.toNat) := by
    rw [BitVec.toNat_sub]
    apply decide_eq_decide.mpr
    by_cases h : x₀.toNat < y₀.toNat
    · rw [Nat.mod_eq_of_lt (by omega)]; omega
    · rw [show 2 ^ v - y₀.toNat + x₀.toNat = 2 ^ v + (x₀.toNat - y₀.toNat) by omega, Nat.add_mod_left, Nat.mod_eq_of_lt (by omega)]
      omega
  rw [this]
  congr 1
  generalize (if decide (x₀.toNat < y₀.toNat) then 1#w else 0#w) = c
  rw [BitVec.add_assoc, BitVec.add_comm y₁ c, ← BitVec.add_assoc, BitVec.sub_add_cancel, BitVec.sub_add_cancel]

theorem append_neg {w v : Nat} (hw : 0 < w) (x₁ : BitVec w) (x₀ : BitVec v) :
    -(x₁ ++ x₀) = (if decide (x₀ = 0#v) then -x₁ else ~~~x₁) ++ (-x₀) := by
  have h := append_sub hw 0#w x₁ 0#v x₀
  have hz : (0#w ++ 0#v) = 0#(w + v) := by
    apply BitVec.eq_of_toNat_eq
    rw [toNat_append_eq]; simp
  rw [hz, BitVec.zero_sub, BitVec.zero_sub, BitVec.zero_sub] at h
  rw [h]
  congr 1
  by_cases hx : x₀ = 0#v
  · subst hx; simp
  · have : (0#v).toNat < x₀.toNat := by
      have : x₀.toNat ≠ 0 := fun e => hx (BitVec.eq_of_toNat_eq (by simpa using e))
      simp; omega
    rw [decide_eq_true this, decide_eq_false hx, if_pos rfl, if_neg (by decide), BitVec.neg_eq_not_add, BitVec.add_sub_cancel]

variable (m : Mode) {w v : Nat} {a b : BitVecValue} {x y : BitVec w} {a₀ b₀ : BitVecValue} {x₀ y₀ : BitVec v}

/-! ## C133 -/

/-- **C133** Slicing commutes with the bitwise operations, for every legal slice. -/
theorem C133_slice (ha : Denotes a x) (hb : Denotes b y) {i j : Nat} (hi : i < w) (hj : j ≤ i) :
    ∃ a' b', BitVecValue.slice m a i j = ok a' ∧ BitVecValue.slice m b i j = ok b' ∧
      (∀ op ∈ [BitVecValue.and m, BitVecValue.or m, BitVecValue.xor m],
        ∃ r s, op a b = ok r ∧ BitVecValue.slice m r i j = ok s ∧ op a' b' = ok s) ∧
      (∃ r s, BitVecValue.not m a = ok r ∧ BitVecValue.slice m r i j = ok s ∧ BitVecValue.not m a' = ok s) := by
  obtain ⟨a', h1, d1⟩ := C19_slice m ha hi hj
  obtain ⟨b', h2, d2⟩ := C19_slice m hb hi hj
  refine ⟨a', b', h1, h2, ?_, ?_⟩
  · intro op hop
    simp only [List.mem_cons, List.not_mem_nil, or_false] at hop
    rcases hop with rfl | rfl | rfl
    · obtain ⟨r, h3, d3, _⟩ := C10_and m ha hb
      obtain ⟨s, h4, d4⟩ := C19_slice m d3 hi hj
      obtain ⟨t, h5, d5, _⟩ := C10_and m d1 d2
      rw [← BitVec.extractLsb'_and] at d5
      exact ⟨r, s, h3, h4, by rw [h5, d5.repr_unique d4]⟩
    · obtain ⟨r, h3, d3⟩ := C10_or m ha hb
      obtain ⟨s, h4, d4⟩ := C19_slice m d3 hi hj
      obtain ⟨t, h5, d5⟩ := C10_or m d1 d2
      rw [← BitVec.extractLsb'_or] at d5
      exact ⟨r, s, h3, h4, by rw [h5, d5.repr_unique d4]⟩
    · obtain ⟨r, h3, d3⟩ := C10_xor m ha hb
      obtain ⟨s, h4, d4⟩ := C19_slice m d3 hi hj
      obtain ⟨t, h5, d5⟩ := C10_xor m d1 d2
      rw [← BitVec.extractLsb'_xor] at d5
      exact ⟨r, s, h3, h4, by rw [h5, d5.repr_unique d4]⟩
  · obtain ⟨r, h3, d3⟩ := C11_not m (by omega) ha
    obtain ⟨s, h4, d4⟩ := C19_slice m d3 hi hj
    obtain ⟨t, h5, d5⟩ := C11_not m (by omega) d1
    have e : (~~~x).extractLsb' j (i - j + 1) = ~~~(x.extractLsb' j (i - j + 1)) := by
      apply BitVec.eq_of_getLsbD_eq
      intro k hk
      rw [BitVec.getLsbD_extractLsb', BitVec.getLsbD_not, BitVec.getLsbD_not, BitVec.getLsbD_extractLsb']
      have : j + k < w := by omega
      simp [hk, this]
    rw [e] at d4
    exact ⟨r, s, h3, h4, by rw [h5, d5.repr_unique d4]⟩

example : BitVecValue.slice .debug (encode 0x5f#70) 66 3 = ok (encode 0xb#64) ∧
    (do let r ← BitVecValue.not .debug (encode 0x5f#70); BitVecValue.slice .debug r 66 3) = BitVecValue.not .debug (encode 0xb#64) := by
  decide +kernel

/-- **C133** Concatenation commutes with the bitwise operations. -/
theorem C133_concat (ha : Denotes a x) (hb : Denotes b y) (ha₀ : Denotes a₀ x₀) (hb₀ : Denotes b₀ y₀) (hw : 0 < w) (hv : 0 < v)
    (hlt : w + v < 2 ^ 32) :
    ∃ p q, BitVecValue.concat m a a₀ = ok p ∧ BitVecValue.concat m b b₀ = ok q ∧
      (∀ op ∈ [BitVecValue.and m, BitVecValue.or m, BitVecValue.xor m],
        ∃ hi lo r, op a b = ok hi ∧ op a₀ b₀ = ok lo ∧ BitVecValue.concat m hi lo = ok r ∧ op p q = ok r) ∧
      (∃ hi lo r, BitVecValue.not m a = ok hi ∧ BitVecValue.not m a₀ = ok lo ∧ BitVecValue.concat m hi lo = ok r ∧
        BitVecValue.not m p = ok r) := by
  obtain ⟨p, h1, d1⟩ := C21_concat_partial m ha ha₀ hlt (.inl ⟨hw, hv⟩)
  obtain ⟨q, h2, d2⟩ := C21_concat_partial m hb hb₀ hlt (.inl ⟨hw, hv⟩)
  refine ⟨p, q, h1, h2, ?_, ?_⟩
  · intro op hop
    simp only [List.mem_cons, List.not_mem_nil, or_false] at hop
    rcases hop with rfl | rfl | rfl
    · obtain ⟨hi, h3, d3, _⟩ := C10_and m ha hb
      obtain ⟨lo, h4, d4, _⟩ := C10_and m ha₀ hb₀
      obtain ⟨r, h5, d5⟩ := C21_concat_partial m d3 d4 hlt (.inl ⟨hw, hv⟩)
      obtain ⟨t, h6, d6, _⟩ := C10_and m d1 d2
      rw [BitVec.and_append] at d6
      exact ⟨hi, lo, r, h3, h4, h5, by rw [h6, d6.repr_unique d5]⟩
    · obtain ⟨hi, h3, d3⟩ := C10_or m ha hb
      obtain ⟨lo, h4, d4⟩ := C10_or m ha₀ hb₀
      obtain ⟨r, h5, d5⟩ := C21_concat_partial m d3 d4 hlt (.inl ⟨hw, hv⟩)
      obtain ⟨t, h6, d6⟩ := C10_or m d1 d2
      rw [BitVec.or_append] at d6
      exact ⟨hi, lo, r, h3, h4, h5, by rw [h6, d6.repr_unique d5]⟩
    · obtain ⟨hi, h3, d3⟩ := C10_xor m ha hb
      obtain ⟨lo, h4, d4⟩ := C10_xor m ha₀ hb₀
      obtain ⟨r, h5, d5⟩ := C21_concat_partial m d3 d4 hlt (.inl ⟨hw, hv⟩)
      obtain ⟨t, h6, d6⟩ := C10_xor m d1 d2
      rw [BitVec.xor_append] at d6
      exact ⟨hi, lo, r, h3, h4, h5, by rw [h6, d6.repr_unique d5]⟩
  · obtain ⟨hi, h3, d3⟩ := C11_not m hw ha
    obtain ⟨lo, h4, d4⟩ := C11_not m hv ha₀
    obtain ⟨r, h5, d5⟩ := C21_concat_partial m d3 d4 hlt (.inl ⟨hw, hv⟩)
    obtain ⟨t, h6, d6⟩ := C11_not m (by omega) d1
    rw [BitVec.not_append] at d6
    exact ⟨hi, lo, r, h3, h4, h5, by rw [h6, d6.repr_unique d5]⟩

/-- **C133** The sum is less than an operand exactly if the unsigned addition overflows. -/
theorem C133_carry (hw : 0 < w) (ha : Denotes a x) (hb : Denotes b y) :
    ∃ s c, BitVecValue.add m a b = ok s ∧ BitVecValue.isLess m s a = ok c ∧ BitVecValue.isLess m s b = ok c ∧
      (c = true ↔ 2 ^ w ≤ x.toNat + y.toNat) := by
  obtain ⟨s, h1, d1⟩ := C06_add m hw ha hb
  have hx := x.isLt
  have hy := y.isLt
  have e : (x + y).toNat = if 2 ^ w ≤ x.toNat + y.toNat then x.toNat + y.toNat - 2 ^ w else x.toNat + y.toNat := by
    rw [BitVec.toNat_add]
    split
    · rw [Nat.mod_eq_sub_mod (by omega), Nat.mod_eq_of_lt (by omega)]
    · exact Nat.mod_eq_of_lt (by omega)
  refine ⟨s, decide (2 ^ w ≤ x.toNat + y.toNat), h1, ?_, ?_, decide_eq_true_iff⟩
  · rw [C16_is_less m d1 ha, e]
    congr 1
    apply decide_eq_decide.mpr
    split <;> omega
  · rw [C16_is_less m d1 hb, e]
    congr 1
    apply decide_eq_decide.mpr
    split <;> omega

/-- **C133** The signed addition overflows exactly if the operands have the same sign and the sum has the other one; the signed
subtraction exactly if the operands have different signs and the difference does not have the sign of the first one. -/
theorem C133_signed_overflow (hw : 0 < w) (ha : Denotes a x) (hb : Denotes b y) :
    ∃ s d na nb ns nd, BitVecValue.add m a b = ok s ∧ BitVecValue.sub m a b = ok d ∧ BitVecValue.isNegative m a = ok na ∧
      BitVecValue.isNegative m b = ok nb ∧ BitVecValue.isNegative m s = ok ns ∧ BitVecValue.isNegative m d = ok nd ∧
      (¬ FitsSigned (x.toInt + y.toInt) w ↔ na = nb ∧ ns ≠ na) ∧ (¬ FitsSigned (x.toInt - y.toInt) w ↔ na ≠ nb ∧ nd ≠ na) := by
  obtain ⟨s, h1, d1⟩ := C06_add m hw ha hb
  obtain ⟨d, h2, d2⟩ := C07_sub m hw ha hb
  refine ⟨s, d, _, _, _, _, h1, h2, (C25_is_negative m hw ha).1, (C25_is_negative m hw hb).1, (C25_is_negative m hw d1).1,
    (C25_is_negative m hw d2).1, ?_, ?_⟩
  · have h := BitVec.saddOverflow_eq x y
    have h' : x.saddOverflow y = true ↔ ¬ FitsSigned (x.toInt + y.toInt) w := by
      unfold BitVec.saddOverflow FitsSigned
      simp only [Bool.or_eq_true, decide_eq_true_eq]
      omega
    rw [← h', h]
    cases x.msb <;> cases y.msb <;> cases (x + y).msb <;> simp
  · have h := BitVec.ssubOverflow_eq x y
    have h' : x.ssubOverflow y = true ↔ ¬ FitsSigned (x.toInt - y.toInt) w := by
      unfold BitVec.ssubOverflow FitsSigned
      simp only [Bool.or_eq_true, decide_eq_true_eq]
      omega
    rw [← h', h]
    cases x.msb <;> cases y.msb <;> cases (x - y).msb <;> simp

example : ¬ FitsSigned ((BitVec.intMin 65).toInt + (BitVec.intMin 65).toInt) 65 ∧ FitsSigned ((3#65).toInt + (-5#65).toInt) 65 ∧
    BitVecValue.add .debug (encode (BitVec.intMin 65)) (encode (BitVec.intMin 65)) = ok (encode 0#65) := by decide +kernel

/-- **C133** Adding in two parts: add the low parts, add the high parts, and one more if the sum of the low parts is less than one
of them. -/
theorem C133_add (ha : Denotes a x) (hb : Denotes b y) (ha₀ : Denotes a₀ x₀) (hb₀ : Denotes b₀ y₀) (hw : 0 < w) (hv : 0 < v)
    (hlt : w + v < 2 ^ 32) :
    ∃ p q one lo c hi hi' r, BitVecValue.concat m a a₀ = ok p ∧ BitVecValue.concat m b b₀ = ok q ∧
      BitVecValue.fromU64 m 1#64 w = ok one ∧ BitVecValue.add m a₀ b₀ = ok lo ∧ BitVecValue.isLess m lo a₀ = ok c ∧
      BitVecValue.add m a b = ok hi ∧ (if c then BitVecValue.add m hi one else ok hi) = ok hi' ∧
      BitVecValue.concat m hi' lo = ok r ∧ BitVecValue.add m p q = ok r := by
  have h1w : 1 < 2 ^ w := Nat.one_lt_two_pow (by omega)
  obtain ⟨p, h1, d1⟩ := C21_concat_partial m ha ha₀ hlt (.inl ⟨hw, hv⟩)
  obtain ⟨q, h2, d2⟩ := C21_concat_partial m hb hb₀ hlt (.inl ⟨hw, hv⟩)
  obtain ⟨one, h3, d3⟩ := C01_from_u64 m hw ha.width_lt 1#64 h1w
  obtain ⟨lo, c, h4, h5, _, hc⟩ := C133_carry m hv ha₀ hb₀
  obtain ⟨lo', h4', d4⟩ := C06_add m hv ha₀ hb₀
  rw [h4] at h4'
  cases h4'
  obtain ⟨hi, h6, d6⟩ := C06_add m hw ha hb
  obtain ⟨hi', h7, d7⟩ : ∃ hi', (if c then BitVecValue.add m hi one else ok hi) = ok hi' ∧
      Denotes hi' (x + y + (if c then 1#w else 0#w)) := by
    cases c with
    | true => exact C06_add m hw d6 d3
    | false => exact ⟨hi, rfl, by simpa using d6⟩
  obtain ⟨r, h8, d8⟩ := C21_concat_partial m d7 d4 hlt (.inl ⟨hw, hv⟩)
  obtain ⟨s, h9, d9⟩ := C06_add m (by omega) d1 d2
  have hc' : decide (2 ^ v ≤ x₀.toNat + y₀.toNat) = c := by
    cases c with
    | true => exact decide_eq_true (hc.mp rfl)
    | false => exact decide_eq_false (fun h => nomatch hc.mpr h)
  rw [append_add hw, hc'] at d9
  exact ⟨p, q, one, lo, c, hi, hi', r, h1, h2, h3, h4, h5, h6, h7, h8, by rw [h9, d9.repr_unique d8]⟩

/-- **C133** Subtracting in two parts: the high parts are reduced by one more if the low part is less than the one taken away. -/
theorem C133_sub (ha : Denotes a x) (hb : Denotes b y) (ha₀ : Denotes a₀ x₀) (hb₀ : Denotes b₀ y₀) (hw : 0 < w) (hv : 0 < v)
    (hlt : w + v < 2 ^ 32) :
    ∃ p q one lo c hi hi' r, BitVecValue.concat m a a₀ = ok p ∧ BitVecValue.concat m b b₀ = ok q ∧
      BitVecValue.fromU64 m 1#64 w = ok one ∧ BitVecValue.sub m a₀ b₀ = ok lo ∧ BitVecValue.isLess m a₀ b₀ = ok c ∧
      BitVecValue.sub m a b = ok hi ∧ (if c then BitVecValue.sub m hi one else ok hi) = ok hi' ∧
      BitVecValue.concat m hi' lo = ok r ∧ BitVecValue.sub m p q = ok r := by
  have h1w : 1 < 2 ^ w := Nat.one_lt_two_pow (by omega)
  obtain ⟨p, h1, d1⟩ := C21_concat_partial m ha ha₀ hlt (.inl ⟨hw, hv⟩)
  obtain ⟨q, h2, d2⟩ := C21_concat_partial m hb hb₀ hlt (.inl ⟨hw, hv⟩)
  obtain ⟨one, h3, d3⟩ := C01_from_u64 m hw ha.width_lt 1#64 h1w
  obtain ⟨lo, h4, d4⟩ := C07_sub m hv ha₀ hb₀
  have h5 := C16_is_less m ha₀ hb₀
  obtain ⟨hi, h6, d6⟩ := C07_sub m hw ha hb
  obtain ⟨hi', h7, d7⟩ : ∃ hi', (if decide (x₀.toNat < y₀.toNat) then BitVecValue.sub m hi one else ok hi) = ok hi' ∧
      Denotes hi' (x - y - (if decide (x₀.toNat < y₀.toNat) then 1#w else 0#w)) := by
    cases decide (x₀.toNat < y₀.toNat) with
    | true => exact C07_sub m hw d6 d3
    | false => exact ⟨hi, rfl, by simpa using d6⟩
  obtain ⟨r, h8, d8⟩ := C21_concat_partial m d7 d4 hlt (.inl ⟨hw, hv⟩)
  obtain ⟨s, h9, d9⟩ := C07_sub m (by omega) d1 d2
  rw [append_sub hw] at d9
  exact ⟨p, q, one, lo, _, hi, hi', r, h1, h2, h3, h4, h5, h6, h7, h8, by rw [h9, d9.repr_unique d8]⟩

/-- **C133** Negating in two parts: the high part is negated if the low part is zero and complemented otherwise. -/
theorem C133_negate (ha : Denotes a x) (ha₀ : Denotes a₀ x₀) (hw : 0 < w) (hv : 0 < v) (hlt : w + v < 2 ^ 32) :
    ∃ p lo hi r, BitVecValue.concat m a a₀ = ok p ∧ BitVecValue.negate m a₀ = ok lo ∧
      (if BitVecValue.isZero a₀ then BitVecValue.negate m a else BitVecValue.not m a) = ok hi ∧
      BitVecValue.concat m hi lo = ok r ∧ BitVecValue.negate m p = ok r := by
  obtain ⟨p, h1, d1⟩ := C21_concat_partial m ha ha₀ hlt (.inl ⟨hw, hv⟩)
  obtain ⟨lo, h2, d2⟩ := C08_negate m hv ha₀
  obtain ⟨hi, h3, d3⟩ : ∃ hi, (if BitVecValue.isZero a₀ then BitVecValue.negate m a else BitVecValue.not m a) = ok hi ∧
      Denotes hi (if decide (x₀ = 0#v) then -x else ~~~x) := by
    rw [C25_is_zero ha₀]
    cases decide (x₀ = 0#v) with
    | true => exact C08_negate m hw ha
    | false => exact C11_not m hw ha
  obtain ⟨r, h4, d4⟩ := C21_concat_partial m d3 d2 hlt (.inl ⟨hw, hv⟩)
  obtain ⟨s, h5, d5⟩ := C08_negate m (by omega) d1
  rw [append_neg hw] at d5
  exact ⟨p, lo, hi, r, h1, h2, h3, h4, by rw [h5, d5.repr_unique d4]⟩

/-- A 130-bit addition from two halves of 65 bits, with a carry. -/
example : BitVecValue.concat .debug (encode 1#65) (encode (BitVec.allOnes 65)) = ok (encode (BitVec.ofNat 130 (2 ^ 66 - 1))) ∧
    BitVecValue.isLess .debug (encode 0#65) (encode (BitVec.allOnes 65)) = ok true ∧
    BitVecValue.add .debug (encode (BitVec.ofNat 130 (2 ^ 66 - 1))) (encode 1#130) = BitVecValue.concat .debug (encode 2#65) (encode 0#65) := by
  decide +kernel

/-! ## C134 -/

/-- **C134, full statement**: a left shift by `k` and a right shift by `w - k`, combined with `or`, rotate the value: the low
`w - k` bits come first, then the high `k` bits. -/
def C134_statement : Prop := ∀ (m : Mode) {w : Nat} {a b c : BitVecValue} {x y z : BitVec w}, Denotes a x → Denotes b y → Denotes c z →
  0 < y.toNat → y.toNat < w → z.toNat = w - y.toNat →
  ∃ l r t low high, BitVecValue.shiftLeft m a b = ok l ∧ BitVecValue.shiftRight m a c = ok r ∧ BitVecValue.or m l r = ok t ∧
    BitVecValue.slice m a (w - 1 - y.toNat) 0 = ok low ∧ BitVecValue.slice m a (w - 1) (w - y.toNat) = ok high ∧
    BitVecValue.concat m low high = ok t

variable {c : BitVecValue} {z : BitVec w}

/-- **C134, exact**: after `mask_msb` the two shifts and the `or` always rotate. Without it, they do exactly if `k` is no multiple of
64 or none of the bits is set that the left shift moves into the unused part of the top word. -/
theorem C134_rotate (ha : Denotes a x) (hb : Denotes b y) (hc : Denotes c z) (h0 : 0 < y.toNat) (hk : y.toNat < w)
    (hz : z.toNat = w - y.toNat) :
    ∃ l r t low high rot, BitVecValue.shiftLeft m a b = ok l ∧ BitVecValue.shiftRight m a c = ok r ∧ BitVecValue.or m l r = ok t ∧
      BitVecValue.slice m a (w - 1 - y.toNat) 0 = ok low ∧ BitVecValue.slice m a (w - 1) (w - y.toNat) = ok high ∧
      BitVecValue.concat m low high = ok rot ∧ BitVecValue.maskMsb m t = ok rot ∧
      (t = rot ↔ y.toNat % 64 ≠ 0 ∨ ∀ i, w + i < 64 * ((w + 63) / 64) → x.getLsbD (w - y.toNat + i) = false) := by
  have hw : 0 < w := by omega
  have hlt := ha.width_lt
  obtain ⟨l, h1, e1, e2, e3, e4⟩ := C12_shift_left_exact m hw ha hb
  have s1 : Shows l (x <<< y.toNat) := ⟨hlt, e1, e2, e3⟩
  obtain ⟨r, h2, d2⟩ := C13_shift_right m hw ha hc
  obtain ⟨t, h3, s3, b3⟩ : ∃ t, BitVecValue.or m l r = ok t ∧ Shows t (x <<< y.toNat ||| x >>> z.toNat) ∧
      ∀ i, bit t.words i = (bit l.words i || bit r.words i) :=
    bitwise_words (m := m) (g := Bool.or) s1 d2.shows (f := (· ||| ·)) (fun u v i _ => by simp) rfl (fun i => BitVec.getLsbD_or ..)
  obtain ⟨rot', h4, d4⟩ := s3.mask_msb m hw
  obtain ⟨low, h5, d5⟩ := narrow_spec m ha (j := w - 1 - y.toNat) (by omega)
  obtain ⟨high, h6, d6⟩ := C19_slice m ha (msb := w - 1) (lsb := w - y.toNat) (by omega) (by omega)
  obtain ⟨rot, h7, d7⟩ := C21_concat_partial m d5 d6 (by omega) (.inl ⟨by omega, by omega⟩)
  have d7' : Denotes rot (x <<< y.toNat ||| x >>> z.toNat) := by
    refine Denotes.of_bit hlt (by rw [d7.width_eq]; omega) (by rw [d7.length_eq]; congr 1; omega) fun i => ?_
    rw [d7.bit, BitVec.getLsbD_append, BitVec.getLsbD_or, BitVec.getLsbD_shiftLeft, BitVec.getLsbD_ushiftRight,
      BitVec.getLsbD_extractLsb', BitVec.getLsbD_setWidth, hz]
    by_cases hi : i < y.toNat
    · have h1 : i < w := by omega
      have h2 : i < w - 1 - (w - y.toNat) + 1 := by omega
      simp [hi, h1, h2]
    · have h2 : ¬ i < w - 1 - (w - y.toNat) + 1 := by omega
      have h3 : x.getLsbD (w - y.toNat + i) = false := BitVec.getLsbD_of_ge _ _ (by omega)
      have h4 : i - (w - 1 - (w - y.toNat) + 1) = i - y.toNat := by omega
      rw [if_neg h2, h3, h4]
      by_cases h5 : i < w
      · have h6 : i - y.toNat < w - 1 - y.toNat + 1 := by omega
        simp [hi, h5, h6]
      · have h6 : ¬ i - y.toNat < w - 1 - y.toNat + 1 := by omega
        simp [h5, h6]
  have hr : rot' = rot := d4.repr_unique d7'
  subst hr
  refine ⟨l, r, t, low, high, rot', h1, h2, h3, h5, h6, h7, h4, ?_⟩
  have hhigh : ∀ i, w ≤ i → bit t.words i = (decide (y.toNat % 64 = 0) && decide (i < 64 * ((w + 63) / 64)) &&
      x.getLsbD (i - y.toNat)) := by
    intro i hi
    have g1 : y.toNat ≤ i := by omega
    rw [b3, e4 i hi, d2.bit, BitVec.getLsbD_of_ge (x >>> z.toNat) i hi]
    simp [hk, g1]
  constructor
  · rintro rfl
    by_cases h : y.toNat % 64 = 0
    · refine .inr fun i hi => ?_
      have g := hhigh (w + i) (by omega)
      rw [d4.bit, BitVec.getLsbD_of_ge _ _ (by omega), decide_eq_true h, decide_eq_true hi,
        show w + i - y.toNat = w - y.toNat + i by omega] at g
      simpa using g.symm
    · exact .inl h
  · intro h
    refine Denotes.repr_unique (Denotes.of_bit hlt s3.width_eq s3.length_eq fun i => ?_) d4
    by_cases hi : i < w
    · exact s3.low i hi
    · rw [hhigh i (by omega), BitVec.getLsbD_of_ge (x <<< y.toNat ||| x >>> z.toNat) i (by omega)]
      rcases h with h | h
      · rw [decide_eq_false h]; rfl
      · by_cases g : i < 64 * ((w + 63) / 64)
        · have := h (i - w) (by omega)
          rw [show w - y.toNat + (i - w) = i - y.toNat by omega] at this
          rw [this, Bool.and_false]
        · rw [decide_eq_false g, Bool.and_false, Bool.false_and]

/-- **C134, proved part**: rotation by an amount that is no multiple of 64.
Missing: multiples of 64, where the result can have bits above its width (`C134_rotate`). -/
theorem C134_rotate_partial (ha : Denotes a x) (hb : Denotes b y) (hc : Denotes c z) (h0 : y.toNat % 64 ≠ 0) (hk : y.toNat < w)
    (hz : z.toNat = w - y.toNat) :
    ∃ l r t low high, BitVecValue.shiftLeft m a b = ok l ∧ BitVecValue.shiftRight m a c = ok r ∧ BitVecValue.or m l r = ok t ∧
      BitVecValue.slice m a (w - 1 - y.toNat) 0 = ok low ∧ BitVecValue.slice m a (w - 1) (w - y.toNat) = ok high ∧
      BitVecValue.concat m low high = ok t := by
  obtain ⟨l, r, t, low, high, rot, h1, h2, h3, h4, h5, h6, _, h7⟩ := C134_rotate m ha hb hc (by omega) hk hz
  have := h7.mpr (.inl h0)
  subst this
  exact ⟨l, r, t, low, high, h1, h2, h3, h4, h5, h6⟩

/-- **C134 is false of the code**: rotating the 65-bit value 2 by 64 leaves a bit above the width. -/
theorem C134_refuted : ¬ C134_statement := fun h => by
  have da := encode_denotes 2#65 (by decide)
  have db := encode_denotes 64#65 (by decide)
  have dc := encode_denotes 1#65 (by decide)
  obtain ⟨l, r, t, low, high, h1, h2, h3, h4, h5, h6⟩ := h .debug da db dc (by decide) (by decide) (by decide)
  obtain ⟨l', r', t', low', high', rot, g1, g2, g3, g4, g5, g6, _, g7⟩ := C134_rotate .debug da db dc (by decide) (by decide) (by decide)
  rw [h1] at g1; cases g1
  rw [h2] at g2; cases g2
  rw [h3] at g3; cases g3
  rw [h4] at g4; cases g4
  rw [h5] at g5; cases g5
  rw [h6] at g6; cases g6
  rcases g7.mp rfl with e | e
  · revert e; decide
  · have := e 0 (by decide)
    revert this; decide

/-- Rotating 70 bits by 3: the top bits `101` come down. -/
example : Denotes (encode (BitVec.ofNat 70 (5 * 2 ^ 67 + 1))) (BitVec.ofNat 70 (5 * 2 ^ 67 + 1)) ∧
    (do
      let l ← BitVecValue.shiftLeft .debug (encode (BitVec.ofNat 70 (5 * 2 ^ 67 + 1))) (encode 3#70)
      let r ← BitVecValue.shiftRight .debug (encode (BitVec.ofNat 70 (5 * 2 ^ 67 + 1))) (encode 67#70)
      BitVecValue.or .debug l r) = ok (encode 13#70) :=
  ⟨encode_denotes _ (by decide), by decide +kernel⟩

end Baa
