import Verif.Props.Parts
import Verif.Spec.Algorithms

/-!
# C135: multiplication and division with the operations that are implemented at every width
-/

namespace Baa
open Res

variable (m : Mode) {w : Nat} {a b : BitVecValue} {x y : BitVec w}

/-! ## Multiplication -/

/-- The loop of the multiplication from bit `i` on, with `k` bits to come. -/
theorem shiftAndAdd_loop (hw : 0 < w) (hb : Denotes b y) : ∀ (k i : Nat), i + k ≤ w → ∀ {t acc : BitVecValue} {u z : BitVec w},
    Denotes t u → Denotes acc z →
    ∃ r, shiftAndAdd m b (List.range' i k) t acc = ok r ∧
      Denotes r (z + u * BitVec.ofNat w (y.toNat / 2 ^ i % 2 ^ k)) := by
  intro k
  induction k with
  | zero =>
    intro i _ t acc u z _ hz
    exact ⟨acc, rfl, by simpa [Nat.mod_one] using hz⟩
  | succ k ih =>
    intro i hi t acc u z ht hz
    obtain ⟨t', h1, d1⟩ := C06_add m hw ht ht
    have hs : y.toNat / 2 ^ i % 2 ^ (k + 1) = (y.getLsbD i).toNat + 2 * (y.toNat / 2 ^ (i + 1) % 2 ^ k) := by
      rw [Nat.pow_succ', Nat.mod_mul, Nat.div_div_eq_div_mul, ← Nat.pow_succ, BitVec.getLsbD, Nat.testBit_eq_decide_div_mod_eq]
      congr 1
      rcases Nat.mod_two_eq_zero_or_one (y.toNat / 2 ^ i) with h | h <;> simp [h]
    have hm : u * BitVec.ofNat w (y.toNat / 2 ^ i % 2 ^ (k + 1)) =
        (if y.getLsbD i then u else 0#w) + (u + u) * BitVec.ofNat w (y.toNat / 2 ^ (i + 1) % 2 ^ k) := by
      rw [hs, BitVec.ofNat_add, BitVec.mul_add]
      congr 1
      · cases y.getLsbD i <;> simp
      · rw [← BitVec.mul_two, BitVec.mul_assoc, BitVec.ofNat_mul]
    unfold shiftAndAdd List.range'
    simp only
    rw [C24_is_bit_set hb (by omega), ok_bind]
    by_cases hc : y.getLsbD i = true
    · obtain ⟨acc', h2, d2⟩ := C06_add m hw hz ht
      obtain ⟨r, h3, d3⟩ := ih (i + 1) (by omega) d1 d2
      refine ⟨r, ?_, ?_⟩
      · rw [if_pos hc, h2, ok_bind, h1, ok_bind, h3]
      · rw [hm, if_pos hc, ← BitVec.add_assoc]; exact d3
    · obtain ⟨r, h3, d3⟩ := ih (i + 1) (by omega) d1 hz
      refine ⟨r, ?_, ?_⟩
      · rw [if_neg hc, ok_bind, h1, ok_bind, h3]
      · rw [hm, if_neg hc, BitVec.zero_add]; exact d3

/-- **C135** Shifting and adding multiplies at every width, also above 64 bits where `mul` is not implemented. -/
theorem C135_multiply (hw : 0 < w) (ha : Denotes a x) (hb : Denotes b y) :
    ∃ r, shiftAndAdd m b (List.range w) a (BitVecValue.zero w) = ok r ∧ Denotes r (x * y) := by
  obtain ⟨r, h, d⟩ := shiftAndAdd_loop m hw hb w 0 (by omega) ha (C01_zero ha.width_lt)
  refine ⟨r, by rw [List.range_eq_range']; exact h, ?_⟩
  rw [Nat.pow_zero, Nat.div_one, Nat.mod_eq_of_lt y.isLt, BitVec.ofNat_toNat, BitVec.setWidth_eq, BitVec.zero_add] at d
  exact d

/-- **C135** Up to 64 bits `mul` returns the value that shifting and adding returns. -/
theorem C135_mul (hw : 0 < w) (hw64 : w ≤ 64) (ha : Denotes a x) (hb : Denotes b y) :
    BitVecValue.mul m a b = shiftAndAdd m b (List.range w) a (BitVecValue.zero w) := by
  obtain ⟨r, h1, d1⟩ := C09_mul_partial m hw hw64 ha hb
  obtain ⟨r', h2, d2⟩ := C135_multiply m hw ha hb
  rw [h1, h2, d1.repr_unique d2]

/-! ## Division -/

theorem mul_two_pow_succ (n i : Nat) : n * 2 ^ (i + 1) = 2 * n * 2 ^ i := by
  rw [Nat.pow_succ', ← Nat.mul_assoc, Nat.mul_comm n 2]

/-- One step of the division on numbers. -/
theorem longDivision_step_nat {n y c : Nat} (hc : c < 2) :
    (2 * (n % y) + c < y → (2 * n + c) / y = 2 * (n / y) ∧ (2 * n + c) % y = 2 * (n % y) + c) ∧
    (0 < y → y ≤ 2 * (n % y) + c → (2 * n + c) / y = 2 * (n / y) + 1 ∧ (2 * n + c) % y = 2 * (n % y) + c - y) := by
  have hn := Nat.div_add_mod n y
  have e : 2 * n + c = 2 * (n % y) + c + y * (2 * (n / y)) := by
    rw [show y * (2 * (n / y)) = 2 * (y * (n / y)) by rw [Nat.mul_left_comm]]; omega
  constructor
  · intro h
    have hy : 0 < y := by omega
    rw [e, Nat.add_mul_div_left _ _ hy, Nat.add_mul_mod_self_left, Nat.div_eq_of_lt h, Nat.mod_eq_of_lt h]
    omega
  · intro hy h
    have hm := Nat.mod_lt n hy
    rw [e, Nat.add_mul_div_left _ _ hy, Nat.add_mul_mod_self_left, Nat.div_eq_of_lt_le (k := 1) (by omega) (by omega),
      Nat.mod_eq_sub_mod h, Nat.mod_eq_of_lt (a := 2 * (n % y) + c - y) (by omega)]
    omega

/-- The low `w` bits of a value of `w + 1` bits. -/
theorem slice_low {n : BitVecValue} {u : BitVec (w + 1)} (hw : 0 < w) (hn : Denotes n u) :
    ∃ r, BitVecValue.slice m n (w - 1) 0 = ok r ∧ Denotes r (BitVec.ofNat w u.toNat) := by
  obtain ⟨r, h, d⟩ := C19_slice m hn (msb := w - 1) (lsb := 0) (by omega) (Nat.zero_le _)
  refine ⟨r, h, ?_⟩
  have e : w - 1 - 0 + 1 = w := by omega
  refine ⟨by rw [← e]; exact d.width_lt, by rw [d.width_eq, e], by rw [d.length_eq, e], ?_⟩
  rw [d.val_eq, BitVec.extractLsb'_toNat, Nat.shiftRight_zero, BitVec.toNat_ofNat, e]

theorem longDivision_loop (hw : 0 < w) (hlt : w + 1 < 2 ^ 32) (ha : Denotes a x) (hb : Denotes b y) :
    ∀ (i : Nat), i ≤ w → ∀ {q r : BitVecValue} {u z : BitVec w}, Denotes q u → Denotes r z →
    u.toNat = (if y.toNat = 0 then 2 ^ (w - i) - 1 else x.toNat / 2 ^ i / y.toNat) * 2 ^ i →
    z.toNat = x.toNat / 2 ^ i % y.toNat →
    ∃ q' r', longDivision m a b i q r = ok (q', r') ∧ Denotes q' (x.smtUDiv y) ∧ Denotes r' (x % y) := by
  intro i
  induction i with
  | zero =>
    intro _ q r u z hq hr hu hz
    refine ⟨q, r, rfl, ?_, ?_⟩
    · have : u = x.smtUDiv y := by
        apply BitVec.eq_of_toNat_eq
        rw [hu, BitVec.smtUDiv_eq]
        by_cases hy : y.toNat = 0
        · have : y = 0#w := BitVec.eq_of_toNat_eq (by simpa using hy)
          subst this
          simp
        · have : y ≠ 0#w := fun e => hy (by simp [e])
          simp [this, hy]
      exact this ▸ hq
    · have : z = x % y := by
        apply BitVec.eq_of_toNat_eq
        rw [hz, BitVec.toNat_umod]; simp
      exact this ▸ hr
  | succ i ih =>
    intro hi q r u z hq hr hu hz
    obtain ⟨s, h1, d1⟩ := C19_slice m ha (msb := i) (lsb := i) (by omega) (Nat.le_refl _)
    obtain ⟨n, h2, d2⟩ := C21_concat_partial m hr d1 (by omega) (.inl ⟨hw, by omega⟩)
    rw [Nat.sub_self] at *
    obtain ⟨e, h3, d3, _⟩ := C22_zero_extend_partial m hb 1 hlt (.inl hw)
    have h4 := C16_is_less m d2 d3
    have hsn : (x.extractLsb' i 1).toNat = x.toNat / 2 ^ i % 2 := by
      rw [BitVec.extractLsb'_toNat, Nat.shiftRight_eq_div_pow]
    have hx : x.toNat / 2 ^ i = 2 * (x.toNat / 2 ^ (i + 1)) + x.toNat / 2 ^ i % 2 := by
      rw [Nat.pow_succ, ← Nat.div_div_eq_div_mul]; omega
    have hxi : x.toNat / 2 ^ i < 2 ^ w := Nat.lt_of_le_of_lt (Nat.div_le_self _ _) x.isLt
    have hnext : (z ++ x.extractLsb' i (0 + 1)).toNat = 2 * (x.toNat / 2 ^ (i + 1) % y.toNat) + x.toNat / 2 ^ i % 2 := by
      rw [toNat_append_eq, hz]
      exact congrArg _ hsn
    have hdiv : (y.setWidth (w + 1)).toNat = y.toNat := by
      rw [BitVec.toNat_setWidth, Nat.mod_eq_of_lt (Nat.lt_trans y.isLt (Nat.pow_lt_pow_succ (by omega)))]
    obtain ⟨st1, st2⟩ := longDivision_step_nat (n := x.toNat / 2 ^ (i + 1)) (y := y.toNat) (c := x.toNat / 2 ^ i % 2)
      (Nat.mod_lt _ (by omega))
    rw [← hx] at st1 st2
    have hyw := y.isLt
    unfold longDivision
    rw [h1, ok_bind, h2, ok_bind, h3, ok_bind, h4, ok_bind, ha.width_eq]
    generalize z ++ x.extractLsb' i (0 + 1) = N at hnext d2 ⊢
    by_cases hc : N.toNat < (y.setWidth (w + 1)).toNat
    · rw [decide_eq_true hc, if_pos rfl]
      rw [hdiv] at hc
      obtain ⟨r', h5, d5⟩ := slice_low m hw d2
      rw [h5, ok_bind]
      obtain ⟨e1, e2⟩ := st1 (by omega)
      have hy : ¬ y.toNat = 0 := by omega
      refine ih (by omega) hq d5 ?_ ?_
      · rw [hu, if_neg hy, if_neg hy, e1, mul_two_pow_succ]
      · rw [BitVec.toNat_ofNat, Nat.mod_eq_of_lt (by omega), e2, hnext]
    · rw [decide_eq_false hc, if_neg (by decide)]
      rw [hdiv] at hc
      obtain ⟨d, h5, d5⟩ := C07_sub m (by omega) d2 d3
      have hd : (N - y.setWidth (w + 1)).toNat = x.toNat / 2 ^ i % y.toNat := by
        rw [BitVec.toNat_sub_of_le (by rw [BitVec.le_def, hdiv]; omega), hdiv]
        by_cases hy : y.toNat = 0
        · rw [hnext, hy, Nat.mod_zero, Nat.mod_zero]; omega
        · rw [(st2 (by omega) (by omega)).2, hnext]
      obtain ⟨r', h6, d6⟩ := slice_low m hw d5
      obtain ⟨q', v, h7, d7, hv⟩ := C24_set_bit hq (pos := i) (by omega)
      rw [h5, ok_bind, h6, ok_bind, h7, ok_bind]
      have hvn : v.toNat = u.toNat + 2 ^ i := by
        have : v = u ||| BitVec.twoPow w i := by
          apply BitVec.eq_of_getLsbD_eq
          intro j hj
          rw [hv, BitVec.getLsbD_or, BitVec.getLsbD_twoPow]
          by_cases e : i = j
          · simp [e, hj]
          · simp [e, Ne.symm e]
        rw [this, BitVec.toNat_or, BitVec.toNat_twoPow, Nat.mod_eq_of_lt (Nat.pow_lt_pow_right (by omega) (by omega)), hu,
          Nat.mul_comm, Nat.two_pow_add_eq_or_of_lt (Nat.pow_lt_pow_right (by omega) (by omega))]
      refine ih (by omega) d7 d6 ?_ ?_
      · rw [hvn, hu]
        by_cases hy : y.toNat = 0
        · rw [if_pos hy, if_pos hy, show w - i = w - (i + 1) + 1 by omega, Nat.pow_succ 2 (w - (i + 1)), Nat.pow_succ 2 i]
          have := Nat.two_pow_pos (w - (i + 1))
          generalize 2 ^ (w - (i + 1)) = A at *
          obtain ⟨A, rfl⟩ : ∃ B, A = B + 1 := ⟨A - 1, by omega⟩
          rw [show (A + 1) * 2 - 1 = A * 2 + 1 by omega, Nat.add_sub_cancel, Nat.add_mul, Nat.one_mul, Nat.mul_comm (2 ^ i) 2,
            Nat.mul_assoc]
        · rw [if_neg hy, if_neg hy, (st2 (by omega) (by omega)).1, mul_two_pow_succ, Nat.add_mul, Nat.one_mul]
      · rw [BitVec.toNat_ofNat, hd, Nat.mod_eq_of_lt (Nat.lt_of_le_of_lt (Nat.mod_le _ _) hxi)]

/-- **C135** Long division gives quotient and remainder at every width. For the divisor zero it gives what the bit-vector
theory of SMT-LIB prescribes: all ones, and the dividend. -/
theorem C135_divide (hw : 0 < w) (hlt : w + 1 < 2 ^ 32) (ha : Denotes a x) (hb : Denotes b y) :
    ∃ q r, longDivision m a b w (BitVecValue.zero w) (BitVecValue.zero w) = ok (q, r) ∧
      (y ≠ 0#w → Denotes q (x / y) ∧ Denotes r (x % y)) ∧ (y = 0#w → Denotes q (BitVec.allOnes w) ∧ r = a) := by
  have hz := C01_zero ha.width_lt
  have hx : x.toNat / 2 ^ w = 0 := Nat.div_eq_of_lt x.isLt
  obtain ⟨q, r, h, d1, d2⟩ := longDivision_loop m hw hlt ha hb w (Nat.le_refl _) hz hz (by simp [hx]) (by simp [hx])
  refine ⟨q, r, h, fun hy => ⟨?_, d2⟩, fun hy => ⟨?_, ?_⟩⟩
  · rw [BitVec.smtUDiv_eq, if_neg hy] at d1; exact d1
  · rw [BitVec.smtUDiv_eq, if_pos hy] at d1; exact d1
  · subst hy
    rw [BitVec.umod_zero] at d2
    exact d2.repr_unique ha

/-- **C135** Quotient times divisor plus remainder gives back the dividend, with the calls themselves, and the remainder is less
than the divisor. -/
theorem C135_divide_multiply (hw : 0 < w) (hlt : w + 1 < 2 ^ 32) (ha : Denotes a x) (hb : Denotes b y) (hy : y ≠ 0#w) :
    ∃ q r p, longDivision m a b w (BitVecValue.zero w) (BitVecValue.zero w) = ok (q, r) ∧
      shiftAndAdd m b (List.range w) q (BitVecValue.zero w) = ok p ∧ BitVecValue.add m p r = ok a ∧
      BitVecValue.isLess m r b = ok true := by
  obtain ⟨q, r, h, h1, _⟩ := C135_divide m hw hlt ha hb
  obtain ⟨dq, dr⟩ := h1 hy
  obtain ⟨p, h2, dp⟩ := C135_multiply m hw dq hb
  obtain ⟨s, h3, ds⟩ := C06_add m hw dp dr
  have hy0 : 0 < y.toNat := Nat.pos_of_ne_zero fun e => hy (BitVec.eq_of_toNat_eq (by simpa using e))
  have e : x / y * y + x % y = x := by
    apply BitVec.eq_of_toNat_eq
    have := Nat.div_add_mod x.toNat y.toNat
    rw [BitVec.toNat_add, BitVec.toNat_mul, BitVec.toNat_udiv, BitVec.toNat_umod, Nat.mod_add_mod, Nat.mul_comm, this,
      Nat.mod_eq_of_lt x.isLt]
  refine ⟨q, r, p, h, h2, ?_, ?_⟩
  · rw [e] at ds
    rw [h3, ds.repr_unique ha]
  · rw [C16_is_less m dr hb, BitVec.toNat_umod, decide_eq_true (Nat.mod_lt _ hy0)]

/-- Non-vacuity: 130 bits, three words. -/
example :
    shiftAndAdd .debug (encode 12345678901234567890123#130) (List.range 130) (encode 98765432109876543210#130)
      (BitVecValue.zero 130) = ok (encode (12345678901234567890123#130 * 98765432109876543210#130)) ∧
    longDivision .debug (encode 123456789012345678901234567890#130) (encode 98765432109876543210#130) 130
      (BitVecValue.zero 130) (BitVecValue.zero 130) =
      ok (encode (123456789012345678901234567890#130 / 98765432109876543210#130),
        encode (123456789012345678901234567890#130 % 98765432109876543210#130)) ∧
    longDivision .debug (encode 5#3) (encode 0#3) 3 (BitVecValue.zero 3) (BitVecValue.zero 3) = ok (encode 7#3, encode 5#3) := by
  decide +kernel

end Baa
