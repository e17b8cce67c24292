import Verif.Props.BitScan
import Verif.Spec.Tricks

/-!
# C149: arithmetic by bitwise operations, and the other way round
-/

namespace Baa
open Res

theorem nat_xor_add_and : ∀ (x y : Nat), (x ^^^ y) + 2 * (x &&& y) = x + y := by
  intro x
  induction x using Nat.strongRecOn with
  | _ x ih =>
    intro y
    by_cases h : x = 0
    · subst h; simp
    · have := ih (x / 2) (by omega) (y / 2)
      have e1 := Nat.xor_div_two (a := x) (b := y)
      have e2 := Nat.and_div_two (a := x) (b := y)
      have e3 : (x ^^^ y) % 2 = (x % 2 + y % 2) % 2 := by
        have := Nat.xor_mod_two_pow (a := x) (b := y) (n := 1)
        rw [Nat.pow_one] at this
        rw [this]
        rcases Nat.mod_two_eq_zero_or_one x with h | h <;> rcases Nat.mod_two_eq_zero_or_one y with h' | h' <;> rw [h, h'] <;> rfl
      have e4 : (x &&& y) % 2 = (x % 2) * (y % 2) := by
        have := Nat.and_mod_two_pow (a := x) (b := y) (n := 1)
        rw [Nat.pow_one] at this
        rw [this]
        rcases Nat.mod_two_eq_zero_or_one x with h | h <;> rcases Nat.mod_two_eq_zero_or_one y with h' | h' <;> rw [h, h'] <;> rfl
      rcases Nat.mod_two_eq_zero_or_one x with h | h <;> rcases Nat.mod_two_eq_zero_or_one y with h' | h' <;>
        rw [h, h'] at e3 e4 <;> omega

section
variable {w : Nat} (x y : BitVec w)

theorem bv_xor_add_and : (x ^^^ y) + ((x &&& y) + (x &&& y)) = x + y := by
  apply BitVec.eq_of_toNat_eq
  rw [BitVec.toNat_add, BitVec.toNat_add, BitVec.toNat_add, BitVec.toNat_xor, BitVec.toNat_and, Nat.add_mod_mod, ← Nat.two_mul,
    nat_xor_add_and]

theorem bv_xor_add_and_eq_or : (x ^^^ y) + (x &&& y) = x ||| y := by
  rw [BitVec.add_eq_or_of_and_eq_zero]
  all_goals
    apply BitVec.eq_of_getLsbD_eq
    intro i hi
    simp only [BitVec.getLsbD_and, BitVec.getLsbD_xor, BitVec.getLsbD_or, BitVec.getLsbD_zero]
    cases x.getLsbD i <;> cases y.getLsbD i <;> rfl

theorem bv_not_eq : ~~~x = -x - 1#w := by
  have := BitVec.neg_eq_not_add x
  grind

theorem bv_sub_not : ~~~(~~~x + y) = x - y := by
  rw [bv_not_eq, bv_not_eq]
  grind

theorem bv_neg_allOnes : (x ^^^ BitVec.allOnes w) - BitVec.allOnes w = -x := by
  rw [BitVec.xor_allOnes, ← BitVec.neg_one_eq_allOnes, BitVec.neg_eq_not_add x]
  grind

theorem bv_eq_allOnes (h : x + 1#w = 0#w) : x = BitVec.allOnes w := by
  rw [← BitVec.neg_one_eq_allOnes]
  grind

theorem bv_arith {c d e : BitVec w} (h1 : -d - 1#w + (c + c) = e + y) (h3 : e = -x - 1#w) : d - (c + c) = x - y := by
  grind

theorem bv_sub_borrows : (x ^^^ y) - ((~~~x &&& y) + (~~~x &&& y)) = x - y := by
  have h1 := bv_xor_add_and (~~~x) y
  have h2 : ~~~x ^^^ y = ~~~(x ^^^ y) := by
    apply BitVec.eq_of_getLsbD_eq
    intro i hi
    simp only [BitVec.getLsbD_xor, BitVec.getLsbD_not, decide_eq_true hi, Bool.true_and]
    cases x.getLsbD i <;> cases y.getLsbD i <;> rfl
  rw [h2, bv_not_eq (x ^^^ y)] at h1
  exact bv_arith x y h1 (bv_not_eq x)

end

section
variable (m : Mode) {w : Nat} {a b : BitVecValue} {x y : BitVec w}

theorem halve_spec (h0 : 0 < w) (ha : Denotes a x) : ∃ r, halve m a = ok r ∧ Denotes r (x >>> 1) := by
  have hp := Nat.one_lt_two_pow (show w ≠ 0 by omega)
  obtain ⟨o, h1, h2⟩ := C01_from_u64 m h0 ha.width_lt 1#64 (by simpa using hp)
  obtain ⟨r, h3, h4⟩ := C13_shift_right m h0 ha h2
  refine ⟨r, by rw [halve, ha.width_eq, h1, ok_bind, h3], ?_⟩
  rwa [show (BitVec.ofNat w (1#64).toNat).toNat = 1 from Nat.mod_eq_of_lt hp] at h4

/-- C149: a sum is the sum without carries plus twice the carries. -/
theorem C149_add_by_carries (h0 : 0 < w) (ha : Denotes a x) (hb : Denotes b y) : addByCarries m a b = BitVecValue.add m a b := by
  obtain ⟨r, r1, r2⟩ := C06_add m h0 ha hb
  obtain ⟨p, p1, p2⟩ := C10_xor m ha hb
  obtain ⟨c, c1, c2, -⟩ := C10_and m ha hb
  obtain ⟨d, d1, d2⟩ := C06_add m h0 c2 c2
  obtain ⟨s, s1, s2⟩ := C06_add m h0 p2 d2
  rw [bv_xor_add_and] at s2
  rw [addByCarries, p1, ok_bind, c1, ok_bind, d1, ok_bind, s1, r1, r2.eq_encode, s2.eq_encode]

/-- C149: a sum is the sum of or and and. -/
theorem C149_add_by_or (h0 : 0 < w) (ha : Denotes a x) (hb : Denotes b y) : addByOr m a b = BitVecValue.add m a b := by
  obtain ⟨r, r1, r2⟩ := C06_add m h0 ha hb
  obtain ⟨p, p1, p2⟩ := C10_or m ha hb
  obtain ⟨c, c1, c2, -⟩ := C10_and m ha hb
  obtain ⟨s, s1, s2⟩ := C06_add m h0 p2 c2
  rw [← bv_xor_add_and_eq_or, BitVec.add_assoc, bv_xor_add_and] at s2
  rw [addByOr, p1, ok_bind, c1, ok_bind, s1, r1, r2.eq_encode, s2.eq_encode]

/-- C149: or is the sum of xor and and. -/
theorem C149_or_by_add (h0 : 0 < w) (ha : Denotes a x) (hb : Denotes b y) : orByAdd m a b = BitVecValue.or m a b := by
  obtain ⟨r, r1, r2⟩ := C10_or m ha hb
  obtain ⟨p, p1, p2⟩ := C10_xor m ha hb
  obtain ⟨c, c1, c2, -⟩ := C10_and m ha hb
  obtain ⟨s, s1, s2⟩ := C06_add m h0 p2 c2
  rw [bv_xor_add_and_eq_or] at s2
  rw [orByAdd, p1, ok_bind, c1, ok_bind, s1, r1, r2.eq_encode, s2.eq_encode]

/-- C149: values without a common one are added by or and by xor. -/
theorem C149_disjoint (h0 : 0 < w) (ha : Denotes a x) (hb : Denotes b y) (h : BitVecValue.and m a b >>= (fun c => ok c.isZero) = ok true) :
    BitVecValue.add m a b = BitVecValue.or m a b ∧ BitVecValue.add m a b = BitVecValue.xor m a b := by
  obtain ⟨r, r1, r2⟩ := C10_or m ha hb
  obtain ⟨p, p1, p2⟩ := C10_xor m ha hb
  obtain ⟨c, c1, c2, -⟩ := C10_and m ha hb
  obtain ⟨s, s1, s2⟩ := C06_add m h0 ha hb
  rw [c1, ok_bind, C25_is_zero c2] at h
  have e : x &&& y = 0#w := by simpa using h
  have e1 := bv_xor_add_and_eq_or x y
  have e2 := bv_xor_add_and x y
  rw [e, BitVec.add_zero] at e1
  rw [e, BitVec.add_zero, BitVec.add_zero] at e2
  rw [← e2] at s2
  rw [← e1] at r2
  rw [s1, r1, p1, s2.eq_encode, r2.eq_encode, p2.eq_encode]
  exact ⟨rfl, rfl⟩

/-- C149: a difference is the difference without borrows minus twice the borrows. -/
theorem C149_sub_by_borrows (h0 : 0 < w) (ha : Denotes a x) (hb : Denotes b y) : subByBorrows m a b = BitVecValue.sub m a b := by
  obtain ⟨r, r1, r2⟩ := C07_sub m h0 ha hb
  obtain ⟨p, p1, p2⟩ := C10_xor m ha hb
  obtain ⟨n, n1, n2⟩ := C11_not m h0 ha
  obtain ⟨c, c1, c2, -⟩ := C10_and m n2 hb
  obtain ⟨d, d1, d2⟩ := C06_add m h0 c2 c2
  obtain ⟨s, s1, s2⟩ := C07_sub m h0 p2 d2
  have e := bv_sub_borrows x y
  rw [e] at s2
  rw [subByBorrows, p1, ok_bind, n1, ok_bind, c1, ok_bind, d1, ok_bind, s1, r1, r2.eq_encode, s2.eq_encode]

/-- C149: a difference by complements. -/
theorem C149_sub_by_not (h0 : 0 < w) (ha : Denotes a x) (hb : Denotes b y) : subByNot m a b = BitVecValue.sub m a b := by
  obtain ⟨r, r1, r2⟩ := C07_sub m h0 ha hb
  obtain ⟨n, n1, n2⟩ := C11_not m h0 ha
  obtain ⟨c, c1, c2⟩ := C06_add m h0 n2 hb
  obtain ⟨s, s1, s2⟩ := C11_not m h0 c2
  have e := bv_sub_not x y
  rw [e] at s2
  rw [subByNot, n1, ok_bind, c1, ok_bind, s1, r1, r2.eq_encode, s2.eq_encode]

/-- C149: the complement is the negation minus one. -/
theorem C149_not_by_negate (h0 : 0 < w) (ha : Denotes a x) : notByNegate m a = BitVecValue.not m a := by
  have hp := Nat.one_lt_two_pow (show w ≠ 0 by omega)
  obtain ⟨r, r1, r2⟩ := C11_not m h0 ha
  obtain ⟨n, n1, n2⟩ := C08_negate m h0 ha
  obtain ⟨o, o1, o2⟩ := C01_from_u64 m h0 ha.width_lt 1#64 (by simpa using hp)
  obtain ⟨s, s1, s2⟩ := C07_sub m h0 n2 o2
  have e : -x - BitVec.ofNat w (1#64).toNat = ~~~x := (bv_not_eq x).symm
  rw [e] at s2
  rw [notByNegate, n1, ok_bind, ha.width_eq, o1, ok_bind, s1, r1, r2.eq_encode, s2.eq_encode]

/-- C149: the average of two numbers, rounded down, although the sum need not fit. -/
theorem C149_average_down (h0 : 0 < w) (ha : Denotes a x) (hb : Denotes b y) :
    ∃ r z, averageDown m a b = ok r ∧ Denotes r (z : BitVec w) ∧ z.toNat = (x.toNat + y.toNat) / 2 := by
  obtain ⟨c, c1, c2, -⟩ := C10_and m ha hb
  obtain ⟨p, p1, p2⟩ := C10_xor m ha hb
  obtain ⟨h, h1, h2⟩ := halve_spec m h0 p2
  obtain ⟨s, s1, s2⟩ := C06_add m h0 c2 h2
  refine ⟨s, _, by rw [averageDown, c1, ok_bind, p1, ok_bind, h1, ok_bind, s1], s2, ?_⟩
  have e := nat_xor_add_and x.toNat y.toNat
  have hx := x.isLt
  have hy := y.isLt
  rw [BitVec.toNat_add, BitVec.toNat_and, BitVec.toNat_ushiftRight, BitVec.toNat_xor, Nat.shiftRight_eq_div_pow, Nat.pow_one,
    Nat.mod_eq_of_lt (by omega)]
  omega

/-- C149: the average of two numbers, rounded up. -/
theorem C149_average_up (h0 : 0 < w) (ha : Denotes a x) (hb : Denotes b y) :
    ∃ r z, averageUp m a b = ok r ∧ Denotes r (z : BitVec w) ∧ z.toNat = (x.toNat + y.toNat + 1) / 2 := by
  obtain ⟨c, c1, c2⟩ := C10_or m ha hb
  obtain ⟨p, p1, p2⟩ := C10_xor m ha hb
  obtain ⟨h, h1, h2⟩ := halve_spec m h0 p2
  obtain ⟨s, s1, s2⟩ := C07_sub m h0 c2 h2
  refine ⟨s, _, by rw [averageUp, c1, ok_bind, p1, ok_bind, h1, ok_bind, s1], s2, ?_⟩
  have e := nat_xor_add_and x.toNat y.toNat
  have o := congrArg BitVec.toNat (bv_xor_add_and_eq_or x y)
  have hx := x.isLt
  have hy := y.isLt
  have ho := (x ||| y).isLt
  rw [BitVec.toNat_add, BitVec.toNat_and, BitVec.toNat_xor] at o
  have hlt : (x.toNat ^^^ y.toNat) + (x.toNat &&& y.toNat) < 2 ^ w := by
    have h3 : x.toNat &&& y.toNat ≤ x.toNat := Nat.and_le_left
    have h4 : (x.toNat ^^^ y.toNat) + (x.toNat &&& y.toNat) = x.toNat ||| y.toNat := by
      have q := nat_xor_add_and (x.toNat ^^^ y.toNat) (x.toNat &&& y.toNat)
      have q1 : (x.toNat ^^^ y.toNat) &&& (x.toNat &&& y.toNat) = 0 := by
        apply Nat.eq_of_testBit_eq
        intro i
        simp only [Nat.testBit_and, Nat.testBit_xor, Nat.zero_testBit]
        cases x.toNat.testBit i <;> cases y.toNat.testBit i <;> rfl
      have q2 : (x.toNat ^^^ y.toNat) ^^^ (x.toNat &&& y.toNat) = x.toNat ||| y.toNat := by
        apply Nat.eq_of_testBit_eq
        intro i
        simp only [Nat.testBit_and, Nat.testBit_xor, Nat.testBit_or]
        cases x.toNat.testBit i <;> cases y.toNat.testBit i <;> rfl
      omega
    rw [h4]
    exact Nat.or_lt_two_pow hx hy
  rw [Nat.mod_eq_of_lt hlt] at o
  have hle : ((x ^^^ y) >>> 1) ≤ (x ||| y) := by
    rw [BitVec.le_def, BitVec.toNat_ushiftRight, BitVec.toNat_xor, Nat.shiftRight_eq_div_pow, Nat.pow_one]
    omega
  rw [BitVec.toNat_sub_of_le hle, BitVec.toNat_ushiftRight, BitVec.toNat_xor, Nat.shiftRight_eq_div_pow, Nat.pow_one]
  omega

/-- C149: the absolute value. -/
theorem C149_absolute (h0 : 0 < w) (ha : Denotes a x) :
    ∃ r z, absolute m a = ok r ∧ Denotes r (z : BitVec w) ∧ z.toNat = x.toInt.natAbs := by
  have hw := ha.width_lt
  have hk : w - 1 < 2 ^ w := Nat.lt_of_lt_of_le (by omega) (Nat.le_of_lt Nat.lt_two_pow_self)
  have hk64 : (BitVec.ofNat 64 (w - 1)).toNat = w - 1 := by rw [BitVec.toNat_ofNat, Nat.mod_eq_of_lt (by omega)]
  obtain ⟨k, k1, k2⟩ := C01_from_u64 m h0 hw (BitVec.ofNat 64 (w - 1)) (by rw [hk64]; exact hk)
  obtain ⟨s, s1, s2⟩ := C14_arithmetic_shift_right m h0 ha k2
  rw [hk64, show (BitVec.ofNat w (w - 1)).toNat = w - 1 by rw [BitVec.toNat_ofNat, Nat.mod_eq_of_lt hk]] at s2
  have e : x.sshiftRight (w - 1) = if x.msb then BitVec.allOnes w else 0#w := by
    apply BitVec.eq_of_getLsbD_eq
    intro i hi
    rw [BitVec.getLsbD_sshiftRight]
    by_cases h : w - 1 + i < w
    · have : w - 1 + i = w - 1 := by omega
      rw [if_pos h, this, ← BitVec.msb_eq_getLsbD_last]
      cases x.msb <;> simp [hi]
    · rw [if_neg h]
      cases x.msb <;> simp [hi]
  rw [e] at s2
  obtain ⟨p, p1, p2⟩ := C10_xor m ha s2
  obtain ⟨r, r1, r2⟩ := C07_sub m h0 p2 s2
  refine ⟨r, _, by rw [absolute, ha.width_eq, k1, ok_bind, s1, ok_bind, p1, ok_bind, r1], r2, ?_⟩
  by_cases hm : x.msb = true
  · have e := bv_neg_allOnes x
    rw [if_pos hm, e, BitVec.toInt_eq_msb_cond, if_pos hm, BitVec.toNat_neg]
    have h1 := x.isLt
    have h2 := BitVec.toNat_ge_of_msb_true hm
    have h3 := Nat.two_pow_pos (w - 1)
    rw [Nat.mod_eq_of_lt (by omega)]
    omega
  · rw [if_neg hm, BitVec.xor_zero, BitVec.sub_zero, BitVec.toInt_eq_msb_cond, if_neg hm]
    rfl

/-- C149: a choice without a branch. -/
theorem C149_choose {c : BitVecValue} {t : BitVec 1} (h0 : 0 < w) (hc : Denotes c t) (ha : Denotes a x) (hb : Denotes b y) :
    choose m c a b = ok (if t = 1#1 then a else b) := by
  obtain ⟨n, rfl⟩ : ∃ n, w = 1 + n := ⟨w - 1, by omega⟩
  obtain ⟨s, s1, s2, -⟩ := C23_sign_extend m (by decide) hc n ha.width_lt
  obtain ⟨q, q1, q2⟩ := C11_not m h0 s2
  obtain ⟨u, u1, u2, -⟩ := C10_and m ha s2
  obtain ⟨v, v1, v2, -⟩ := C10_and m hb q2
  obtain ⟨r, r1, r2⟩ := C10_or m u2 v2
  rw [choose, ha.width_eq, Nat.add_sub_cancel_left, s1, ok_bind, q1, ok_bind, u1, ok_bind, v1, ok_bind, r1, r2.eq_encode]
  rcases BitVec.eq_zero_or_eq_one t with rfl | rfl
  · have e : (0#1).signExtend (1 + n) = 0#(1 + n) := BitVec.eq_of_getLsbD_eq fun i hi => by simp [BitVec.getLsbD_signExtend]
    rw [if_neg (by decide), e, hb.eq_encode]
    simp
  · have e : (1#1).signExtend (1 + n) = BitVec.allOnes (1 + n) := BitVec.eq_of_getLsbD_eq fun i hi => by
      rw [BitVec.getLsbD_signExtend, BitVec.getLsbD_allOnes, decide_eq_true hi]
      by_cases h : i < 1
      · rw [if_pos h, show i = 0 by omega]; rfl
      · rw [if_neg h]; rfl
    rw [if_pos rfl, e, ha.eq_encode]
    simp

theorem gray_spec (h0 : 0 < w) (ha : Denotes a x) : ∃ r, gray m a = ok r ∧ Denotes r (x ^^^ x >>> 1) := by
  obtain ⟨h, h1, h2⟩ := halve_spec m h0 ha
  obtain ⟨r, r1, r2⟩ := C10_xor m ha h2
  exact ⟨r, by rw [gray, h1, ok_bind, r1], r2⟩

/-- C149: counting in Gray code changes one bit at a time, also when the count wraps around. -/
theorem C149_gray_step (h0 : 0 < w) (ha : Denotes a x) : ∃ r k, grayStep m a = ok r ∧ k < w ∧ Denotes r (BitVec.twoPow w k) := by
  have hp := Nat.one_lt_two_pow (show w ≠ 0 by omega)
  obtain ⟨o, o1, o2⟩ := C01_from_u64 m h0 ha.width_lt 1#64 (by simpa using hp)
  have o2 : Denotes o 1#w := o2
  obtain ⟨b, b1, b2⟩ := C06_add m h0 ha o2
  obtain ⟨g, g1, g2⟩ := gray_spec m h0 ha
  obtain ⟨h, h1, h2⟩ := gray_spec m h0 b2
  obtain ⟨r, r1, r2⟩ := C10_xor m g2 h2
  have e : grayStep m a = ok r := by rw [grayStep, ha.width_eq, o1, ok_bind, b1, ok_bind, g1, ok_bind, h1, ok_bind, r1]
  by_cases hz : x + 1#w = 0#w
  · refine ⟨r, w - 1, e, by omega, ?_⟩
    have hx : x = BitVec.allOnes w := by
      exact bv_eq_allOnes x hz
    have : (x ^^^ x >>> 1) ^^^ (x + 1#w ^^^ (x + 1#w) >>> 1) = BitVec.twoPow w (w - 1) := by
      rw [hz, hx]
      apply BitVec.eq_of_getLsbD_eq
      intro i hi
      rw [BitVec.getLsbD_twoPow]
      simp only [BitVec.getLsbD_xor, BitVec.getLsbD_ushiftRight, BitVec.getLsbD_allOnes, BitVec.getLsbD_zero, decide_eq_true hi]
      by_cases q : 1 + i < w
      · rw [decide_eq_true q, decide_eq_false (by omega : ¬ w - 1 = i)]; simp
      · rw [decide_eq_false q, decide_eq_true (by omega : w - 1 = i), decide_eq_true (by omega : w - 1 < w)]; rfl
    rwa [this] at r2
  · obtain ⟨k, k1, k2, k3, k4, -⟩ := lowest_bits hz
    refine ⟨r, k, e, k1, ?_⟩
    rw [BitVec.add_sub_cancel] at k4
    have hz : ∀ j, (x.getLsbD j ^^ (x + 1#w).getLsbD j) = decide (j ≤ k) := by
      intro j
      by_cases hj : j < w
      · rw [k4 j hj]
        by_cases c1 : j < k
        · rw [if_pos c1, k3 j c1, decide_eq_true (by omega)]; rfl
        · rw [if_neg c1]
          by_cases c2 : j = k
          · rw [if_pos c2, c2, k2, decide_eq_true (by omega)]; rfl
          · rw [if_neg c2, decide_eq_false (by omega), Bool.xor_self]
      · rw [BitVec.getLsbD_of_ge _ _ (by omega), BitVec.getLsbD_of_ge _ _ (by omega), decide_eq_false (by omega)]; rfl
    have : (x ^^^ x >>> 1) ^^^ (x + 1#w ^^^ (x + 1#w) >>> 1) = BitVec.twoPow w k := by
      apply BitVec.eq_of_getLsbD_eq
      intro i hi
      rw [BitVec.getLsbD_twoPow]
      simp only [BitVec.getLsbD_xor, BitVec.getLsbD_ushiftRight]
      have e1 := hz i
      have e2 := hz (1 + i)
      rw [show ((x.getLsbD i ^^ x.getLsbD (1 + i)) ^^ ((x + 1#w).getLsbD i ^^ (x + 1#w).getLsbD (1 + i)))
          = ((x.getLsbD i ^^ (x + 1#w).getLsbD i) ^^ (x.getLsbD (1 + i) ^^ (x + 1#w).getLsbD (1 + i))) by
        cases x.getLsbD i <;> cases x.getLsbD (1 + i) <;> cases (x + 1#w).getLsbD i <;> cases (x + 1#w).getLsbD (1 + i) <;> rfl, e1, e2,
        decide_eq_true k1, Bool.true_and]
      by_cases c1 : i < k
      · rw [decide_eq_true (by omega), decide_eq_true (by omega), decide_eq_false (by omega)]; rfl
      · by_cases c2 : k = i
        · rw [decide_eq_true (by omega), decide_eq_false (by omega), decide_eq_true c2]; rfl
        · rw [decide_eq_false (by omega), decide_eq_false (by omega), decide_eq_false c2]; rfl
    rwa [this] at r2

theorem ungray_spec (h0 : 0 < w) {g : BitVecValue} (hg : Denotes g (x ^^^ x >>> 1)) : ∀ n, ∃ r z, ungray m g n = ok r ∧
    Denotes r (z : BitVec w) ∧ ∀ i, w ≤ i + n → z.getLsbD i = x.getLsbD i
  | 0 => ⟨_, 0#w, by rw [ungray, hg.width_eq], C01_zero hg.width_lt, fun i hi => by
      rw [BitVec.getLsbD_zero, BitVec.getLsbD_of_ge _ _ (by omega)]⟩
  | n + 1 => by
    obtain ⟨r, z, r1, r2, r3⟩ := ungray_spec h0 hg n
    obtain ⟨h, h1, h2⟩ := halve_spec m h0 r2
    obtain ⟨s, s1, s2⟩ := C10_xor m hg h2
    refine ⟨s, _, by rw [ungray, r1, ok_bind, h1, ok_bind, s1], s2, ?_⟩
    intro i hi
    simp only [BitVec.getLsbD_xor, BitVec.getLsbD_ushiftRight]
    rw [r3 (1 + i) (by omega)]
    cases x.getLsbD i <;> cases x.getLsbD (1 + i) <;> rfl

/-- C149: Gray codes can be decoded. -/
theorem C149_ungray (h0 : 0 < w) (ha : Denotes a x) : (gray m a >>= fun g => ungray m g w) = ok a := by
  obtain ⟨g, g1, g2⟩ := gray_spec m h0 ha
  obtain ⟨r, z, r1, r2, r3⟩ := ungray_spec m h0 g2 w
  have e : z = x := BitVec.eq_of_getLsbD_eq fun i _ => r3 i (by omega)
  rw [e] at r2
  rw [g1, ok_bind, r1, r2.eq_encode, ha.eq_encode]

end

example : addByCarries .debug (encode (BitVec.allOnes 130)) (encode (BitVec.twoPow 130 64)) = ok (encode (BitVec.twoPow 130 64 - 1#130)) ∧
    subByBorrows .debug (encode 0#130) (encode 1#130) = ok (encode (BitVec.allOnes 130)) := by decide +kernel

example : averageDown .debug (encode (BitVec.allOnes 65)) (encode (BitVec.allOnes 65 - 1#65)) = ok (encode (BitVec.allOnes 65 - 1#65)) ∧
    averageUp .debug (encode (BitVec.allOnes 65)) (encode (BitVec.allOnes 65 - 1#65)) = ok (encode (BitVec.allOnes 65)) := by decide +kernel

example : absolute .debug (encode (-7#70)) = ok (encode 7#70) ∧ absolute .debug (encode 7#70) = ok (encode 7#70) ∧
    absolute .debug (encode (BitVec.twoPow 70 69)) = ok (encode (BitVec.twoPow 70 69)) := by decide +kernel

example : choose .debug (encode 1#1) (encode 5#70) (encode 6#70) = ok (encode 5#70) ∧
    choose .debug (encode 0#1) (encode 5#70) (encode 6#70) = ok (encode 6#70) := by decide +kernel

example : gray .debug (encode 5#66) = ok (encode 7#66) ∧ grayStep .debug (encode (BitVec.allOnes 66)) = ok (encode (BitVec.twoPow 66 65)) ∧
    ungray .debug (encode 7#66) 66 = ok (encode 5#66) := by decide +kernel

end Baa
