import Verif.Props.BytesBig
import Verif.Props.Slice
import Verif.Props.Compare
import Verif.Props.Overflow
import Verif.Spec.FixedPoint

/-!
# C151: fixed-point arithmetic is exact
-/

namespace Baa
open Res

theorem rat_pow_pos (f : Nat) : (0 : Rat) < ((2 ^ f : Int) : Rat) := by
  have : (0 : Int) < 2 ^ f := Int.pow_pos (by decide)
  exact Rat.intCast_lt_intCast.2 this

theorem rat_pow_ne (f : Nat) : ((2 ^ f : Int) : Rat) ≠ 0 := by
  have := rat_pow_pos f
  grind

theorem rat_cross {a b c d : Rat} (hb : b ≠ 0) (hd : d ≠ 0) (h : a * d = c * b) : a / b = c / d := by grind

theorem rat_div_inj {a b d : Rat} (hd : d ≠ 0) (h : a / d = b / d) : a = b := by grind

theorem Fraction.Is.value_eq {q : Fraction} {z : Int} {f : Nat} (h : q.Is z (2 ^ f)) :
    q.value = (z : Rat) / ((2 ^ f : Int) : Rat) := by
  obtain ⟨h1, _, h3⟩ := h
  have e : ((2 ^ f : Nat) : Int) = (2 ^ f : Int) := by norm_cast
  rw [e] at h3
  have hd : ((q.den : Int) : Rat) ≠ 0 := by
    intro h
    have : (q.den : Int) = 0 := Rat.intCast_inj.1 (by rw [h]; rfl)
    omega
  refine rat_cross hd (rat_pow_ne f) ?_
  rw [← Rat.intCast_mul, ← Rat.intCast_mul, h3]

/-- What reading a value of at most 64 bits gives. -/
theorem reads_iff (m : Mode) {w : Nat} (h0 : 0 < w) (h64 : w ≤ 64) {a : BitVecValue} {x : BitVec w} {f : Nat}
    (ha : Denotes a x) (hf : f ≤ w) (hf64 : f < 64) (q : Rat) :
    ReadsSigned m a f q ↔ q = (x.toInt : Rat) / ((2 ^ f : Int) : Rat) := by
  obtain ⟨o, h1, h2⟩ := (C43_to_signed_fixed_point_partial m h0 ha hf hf64).2 (Or.inl h64)
  have hv := h2.value_eq
  constructor
  · rintro ⟨o', h3, h4⟩
    rw [h1] at h3
    injection h3 with h3
    injection h3 with h3
    rw [← h4, ← h3, hv]
  · rintro rfl
    exact ⟨o, h1, hv⟩

theorem HasFixed.bounds {w f : Nat} {z : Int} (h : HasFixed w f ((z : Rat) / ((2 ^ f : Int) : Rat))) :
    -2 ^ (w - 1) ≤ z ∧ z < 2 ^ (w - 1) := by
  obtain ⟨y, h1, h2, h3⟩ := h
  have : z = y := Rat.intCast_inj.1 (rat_div_inj (rat_pow_ne f) h3)
  exact this ▸ ⟨h1, h2⟩

/-- **C151**: every fixed-point number of the width is read from some value, and nothing else is. -/
theorem C151_range (m : Mode) {w : Nat} (h0 : 0 < w) (h64 : w ≤ 64) {f : Nat} (hf : f ≤ w) (hf64 : f < 64) (q : Rat) :
    HasFixed w f q ↔ ∃ a, Canonical a ∧ a.width = w ∧ ReadsSigned m a f q := by
  have hlt : w < 2 ^ 32 := by omega
  constructor
  · rintro ⟨z, h1, h2, rfl⟩
    have hd := encode_denotes (BitVec.ofInt w z) hlt
    refine ⟨_, hd.canonical, rfl, (reads_iff m h0 h64 hd hf hf64 _).2 ?_⟩
    rw [BitVec.toInt_ofInt, (bmod_fits h0 z).2 ⟨h1, h2⟩]
  · rintro ⟨a, ha, rfl, hr⟩
    have hd := ha.denotes
    refine ⟨_, ?_, ?_, (reads_iff m h0 h64 hd hf hf64 _).1 hr⟩
    · exact BitVec.le_toInt _
    · exact BitVec.toInt_lt

/-- **C151**: the sum is exact whenever it has a fixed-point number. -/
theorem C151_add (m : Mode) {w : Nat} (h0 : 0 < w) (h64 : w ≤ 64) {a b : BitVecValue} {x y : BitVec w} {f : Nat} {p q : Rat}
    (ha : Denotes a x) (hb : Denotes b y) (hf : f ≤ w) (hf64 : f < 64) (hp : ReadsSigned m a f p) (hq : ReadsSigned m b f q)
    (hfit : HasFixed w f (p + q)) : ∃ r, BitVecValue.add m a b = ok r ∧ ReadsSigned m r f (p + q) := by
  have hp := (reads_iff m h0 h64 ha hf hf64 _).1 hp
  have hq := (reads_iff m h0 h64 hb hf hf64 _).1 hq
  have e : p + q = ((x.toInt + y.toInt : Int) : Rat) / ((2 ^ f : Int) : Rat) := by
    rw [hp, hq, Rat.intCast_add]; grind
  obtain ⟨r, h1, h2⟩ := C06_add m h0 ha hb
  refine ⟨r, h1, (reads_iff m h0 h64 h2 hf hf64 _).2 ?_⟩
  rw [e] at hfit ⊢
  rw [BitVec.toInt_add, (bmod_fits h0 _).2 hfit.bounds]

/-- **C151**: the difference is exact whenever it has a fixed-point number. -/
theorem C151_sub (m : Mode) {w : Nat} (h0 : 0 < w) (h64 : w ≤ 64) {a b : BitVecValue} {x y : BitVec w} {f : Nat} {p q : Rat}
    (ha : Denotes a x) (hb : Denotes b y) (hf : f ≤ w) (hf64 : f < 64) (hp : ReadsSigned m a f p) (hq : ReadsSigned m b f q)
    (hfit : HasFixed w f (p - q)) : ∃ r, BitVecValue.sub m a b = ok r ∧ ReadsSigned m r f (p - q) := by
  have hp := (reads_iff m h0 h64 ha hf hf64 _).1 hp
  have hq := (reads_iff m h0 h64 hb hf hf64 _).1 hq
  have e : p - q = ((x.toInt - y.toInt : Int) : Rat) / ((2 ^ f : Int) : Rat) := by
    rw [hp, hq, Rat.intCast_sub]; grind
  obtain ⟨r, h1, h2⟩ := C07_sub m h0 ha hb
  refine ⟨r, h1, (reads_iff m h0 h64 h2 hf hf64 _).2 ?_⟩
  rw [e] at hfit ⊢
  rw [BitVec.toInt_sub, (bmod_fits h0 _).2 hfit.bounds]

/-- **C151**: the opposite is exact whenever it has a fixed-point number. -/
theorem C151_negate (m : Mode) {w : Nat} (h0 : 0 < w) (h64 : w ≤ 64) {a : BitVecValue} {x : BitVec w} {f : Nat} {p : Rat}
    (ha : Denotes a x) (hf : f ≤ w) (hf64 : f < 64) (hp : ReadsSigned m a f p)
    (hfit : HasFixed w f (-p)) : ∃ r, BitVecValue.negate m a = ok r ∧ ReadsSigned m r f (-p) := by
  have hp := (reads_iff m h0 h64 ha hf hf64 _).1 hp
  have e : -p = ((-x.toInt : Int) : Rat) / ((2 ^ f : Int) : Rat) := by
    rw [hp, Rat.intCast_neg]; grind
  obtain ⟨r, h1, h2⟩ := C08_negate m h0 ha
  refine ⟨r, h1, (reads_iff m h0 h64 h2 hf hf64 _).2 ?_⟩
  rw [e] at hfit ⊢
  rw [BitVec.toInt_neg, (bmod_fits h0 _).2 hfit.bounds]

/-- **C151**: signed comparison compares the numbers. -/
theorem C151_less (m : Mode) {w : Nat} (h0 : 0 < w) (h64 : w ≤ 64) {a b : BitVecValue} {x y : BitVec w} {f : Nat} {p q : Rat}
    (ha : Denotes a x) (hb : Denotes b y) (hf : f ≤ w) (hf64 : f < 64) (hp : ReadsSigned m a f p)
    (hq : ReadsSigned m b f q) : BitVecValue.isLessSigned m a b = ok (decide (p < q)) := by
  have hp := (reads_iff m h0 h64 ha hf hf64 _).1 hp
  have hq := (reads_iff m h0 h64 hb hf hf64 _).1 hq
  rw [C18_is_less_signed m h0 ha hb]
  congr 1
  refine decide_eq_decide.2 ?_
  rw [hp, hq, Rat.div_lt_iff (rat_pow_pos f), Rat.div_mul_cancel (rat_pow_ne f), Rat.intCast_lt_intCast]

/-- **C151**: sign extension adds integer bits and keeps the number. -/
theorem C151_widen (m : Mode) {w : Nat} (h0 : 0 < w) {n : Nat} (h64 : w + n ≤ 64) {a : BitVecValue} {x : BitVec w} {f : Nat}
    {p : Rat} (ha : Denotes a x) (hf : f ≤ w) (hf64 : f < 64) (hp : ReadsSigned m a f p) :
    ∃ r, BitVecValue.signExtend m a n = ok r ∧ ReadsSigned m r f p := by
  have hp := (reads_iff m h0 (by omega) ha hf hf64 _).1 hp
  obtain ⟨r, h1, h2, h3⟩ := C23_sign_extend m h0 ha n (by omega)
  exact ⟨r, h1, (reads_iff m (by omega) h64 h2 (by omega) hf64 _).2 (by rw [h3, hp])⟩

theorem toInt_append_zero {w : Nat} (x : BitVec w) (k : Nat) :
    (x ++ 0#k : BitVec (w + k)).toInt = x.toInt * 2 ^ k := by
  have hb := x.isLt
  have e : (2 ^ (w + k) : Nat) = 2 ^ w * 2 ^ k := Nat.pow_add ..
  have hk : 0 < 2 ^ k := Nat.two_pow_pos k
  have en : (x ++ 0#k : BitVec (w + k)).toNat = x.toNat * 2 ^ k := by
    simp [BitVec.toNat_append, Nat.shiftLeft_eq]
  rw [BitVec.toInt_eq_toNat_cond, BitVec.toInt_eq_toNat_cond, en, e, ← Nat.mul_assoc]
  by_cases h : 2 * x.toNat < 2 ^ w
  · rw [if_pos h, if_pos (Nat.mul_lt_mul_of_pos_right h hk)]
    push_cast; rfl
  · rw [if_neg h, if_neg (by have := Nat.mul_le_mul_right (2 ^ k) (Nat.le_of_not_lt h); omega)]
    push_cast
    rw [Int.sub_mul]

/-- **C151**: appending zero bits adds fraction bits and keeps the number. -/
theorem C151_refine (m : Mode) {w : Nat} (h0 : 0 < w) {k : Nat} (hk : 0 < k) (h64 : w + k ≤ 64) {a : BitVecValue} {x : BitVec w}
    {f : Nat} {p : Rat} (ha : Denotes a x) (hf : f ≤ w) (hf64 : f + k < 64) (hp : ReadsSigned m a f p) :
    ∃ r, BitVecValue.concat m a (BitVecValue.zero k) = ok r ∧ ReadsSigned m r (f + k) p := by
  have hp := (reads_iff m h0 (by omega) ha hf (by omega) _).1 hp
  obtain ⟨r, h1, h2⟩ := C21_concat_partial m ha (C01_zero (w := k) (by omega)) (by omega) (Or.inl ⟨h0, hk⟩)
  refine ⟨r, h1, (reads_iff m (by omega) h64 h2 (by omega) hf64 _).2 ?_⟩
  rw [toInt_append_zero, hp, Int.pow_add, Rat.intCast_mul, Rat.intCast_mul]
  have := rat_pow_ne k
  have := rat_pow_ne f
  exact rat_cross ‹_› (by grind) (by grind)

/-- **C151**: the arithmetic right shift by `k` drops `k` fraction bits and rounds towards minus infinity. -/
theorem C151_round (m : Mode) {w : Nat} (h0 : 0 < w) (h64 : w ≤ 64) {a b : BitVecValue} {x y : BitVec w} {f : Nat} {p : Rat}
    (ha : Denotes a x) (hb : Denotes b y) (hf : f ≤ w) (hf64 : f < 64) (hk : y.toNat ≤ f) (hp : ReadsSigned m a f p) :
    ∃ r q, BitVecValue.arithmeticShiftRight m a b = ok r ∧ ReadsSigned m r (f - y.toNat) q ∧
      q ≤ p ∧ p < q + 1 / ((2 ^ (f - y.toNat) : Int) : Rat) := by
  have hp := (reads_iff m h0 (by omega) ha hf (by omega) _).1 hp
  obtain ⟨r, z, h1, h2, h3⟩ := C14_arithmetic_shift_right_toInt m h0 ha hb
  refine ⟨r, _, h1, (reads_iff m h0 h64 h2 (by omega) (by omega) _).2 rfl, ?_⟩
  generalize y.toNat = k at *
  obtain ⟨g, rfl⟩ : ∃ g, f = g + k := ⟨f - k, by omega⟩
  rw [Nat.add_sub_cancel]
  have hkp : (0 : Int) < 2 ^ k := Int.pow_pos (by decide)
  have l1 : z.toInt * 2 ^ k ≤ x.toInt := h3 ▸ Int.ediv_mul_le _ (by omega)
  have l2 : x.toInt < (z.toInt + 1) * 2 ^ k := h3 ▸ Int.lt_ediv_add_one_mul_self _ hkp
  rw [← Rat.intCast_le_intCast, Rat.intCast_mul] at l1
  rw [← Rat.intCast_lt_intCast, Rat.intCast_mul, Rat.intCast_add] at l2
  have pg := rat_pow_pos g
  have ng := rat_pow_ne g
  have nk := rat_pow_ne k
  have pf : 0 < ((2 ^ (g + k) : Int) : Rat) := rat_pow_pos (g + k)
  have ef : ((2 ^ (g + k) : Int) : Rat) = ((2 ^ g : Int) : Rat) * ((2 ^ k : Int) : Rat) := by
    rw [Int.pow_add, Rat.intCast_mul]
  have e1 : ((1 : Int) : Rat) = 1 := rfl
  rw [e1] at l2
  generalize ((2 ^ (g + k) : Int) : Rat) = F at *
  generalize ((2 ^ g : Int) : Rat) = G at *
  generalize ((2 ^ k : Int) : Rat) = K at *
  generalize (z.toInt : Rat) = Z at *
  generalize (x.toInt : Rat) = X at *
  constructor
  · refine Rat.not_lt.1 fun h => ?_
    rw [hp, Rat.div_lt_iff pf, ef] at h
    have : Z / G * (G * K) = Z * K := by grind
    grind
  · rw [hp, Rat.div_lt_iff pf, ef]
    have : (Z / G + 1 / G) * (G * K) = (Z + 1) * K := by grind
    grind

/-- **C151**: at double width the product is exact, with as many fraction bits as both operands together. -/
theorem C151_mul (m : Mode) {w : Nat} (h0 : 0 < w) (h64 : w + w ≤ 64) {a b : BitVecValue} {x y : BitVec w} {f g : Nat}
    {p q : Rat} (ha : Denotes a x) (hb : Denotes b y) (hf : f ≤ w) (hg : g ≤ w) (hfg : f + g < 64) (hp : ReadsSigned m a f p)
    (hq : ReadsSigned m b g q) :
    ∃ c d r, BitVecValue.signExtend m a w = ok c ∧ BitVecValue.signExtend m b w = ok d ∧ BitVecValue.mul m c d = ok r ∧
      ReadsSigned m r (f + g) (p * q) := by
  have hp := (reads_iff m h0 (by omega) ha hf (by omega) _).1 hp
  have hq := (reads_iff m h0 (by omega) hb hg (by omega) _).1 hq
  obtain ⟨c, c1, c2, c3⟩ := C23_sign_extend m h0 ha w (by omega)
  obtain ⟨d, d1, d2, d3⟩ := C23_sign_extend m h0 hb w (by omega)
  obtain ⟨r, r1, r2⟩ := C09_mul_partial m (by omega) h64 c2 d2
  refine ⟨c, d, r, c1, d1, r1, (reads_iff m (by omega) h64 r2 (by omega) hfg _).2 ?_⟩
  have hfit : -2 ^ (w + w - 1) ≤ x.toInt * y.toInt ∧ x.toInt * y.toInt < 2 ^ (w + w - 1) := by
    have hx1 := x.le_toInt
    have hx2 := x.toInt_lt
    have hy1 := y.le_toInt
    have hy2 := y.toInt_lt
    have hP : (0 : Int) < 2 ^ (w - 1) := Int.pow_pos (by decide)
    have e : (2 : Int) ^ (w + w - 1) = 2 * (2 ^ (w - 1) * 2 ^ (w - 1)) := by
      rw [← Int.pow_add, ← Int.pow_succ']; congr 1; omega
    rw [e]
    generalize (2 : Int) ^ (w - 1) = P at *
    generalize x.toInt = X at *
    generalize y.toInt = Y at *
    have hab : (X * Y).natAbs ≤ (P * P).natAbs := by
      rw [Int.natAbs_mul, Int.natAbs_mul]; exact Nat.mul_le_mul (by omega) (by omega)
    have : 0 < P * P := Int.mul_pos hP hP
    omega
  rw [BitVec.toInt_mul, c3, d3, (bmod_fits (by omega) _).2 hfit, hp, hq, Int.pow_add, Rat.intCast_mul, Rat.intCast_mul]
  have := rat_pow_ne f
  have := rat_pow_ne g
  grind

/-- `-1.25 + 0.75 = -0.5` with eight bits, four of them after the point. -/
example : ∃ a b r, Denotes a (236#8) ∧ Denotes b (12#8) ∧ ReadsSigned .debug a 4 (-5 / 4) ∧ ReadsSigned .debug b 4 (3 / 4) ∧
    HasFixed 8 4 (-5 / 4 + 3 / 4) ∧ BitVecValue.add .debug a b = ok r ∧ ReadsSigned .debug r 4 (-1 / 2) :=
  ⟨encode 236#8, encode 12#8, encode 248#8, encode_denotes _ (by decide), encode_denotes _ (by decide),
    ⟨_, (by decide : _ = ok (some ⟨true, 20, 16⟩)), by decide +kernel⟩, ⟨_, (by decide : _ = ok (some ⟨false, 12, 16⟩)), by decide +kernel⟩,
    ⟨-8, by decide, by decide, by decide +kernel⟩, by decide, ⟨_, (by decide : _ = ok (some ⟨true, 8, 16⟩)), by decide +kernel⟩⟩

/-- `-1.25 * 0.75 = -0.9375`, and `-1.1875` is rounded to `-1.25` when two fraction bits remain. -/
example : (∃ c d r, BitVecValue.signExtend .debug (encode 236#8) 8 = ok c ∧ BitVecValue.signExtend .debug (encode 12#8) 8 = ok d ∧
      BitVecValue.mul .debug c d = ok r ∧ ReadsSigned .debug r 8 (-15 / 16)) ∧
    (∃ r, BitVecValue.arithmeticShiftRight .debug (encode 237#8) (encode 2#8) = ok r ∧ ReadsSigned .debug r 2 (-5 / 4)) :=
  ⟨⟨encode 65516#16, encode 12#16, encode 65296#16, by decide, by decide, by decide,
    ⟨_, (by decide : _ = ok (some ⟨true, 240, 256⟩)), by decide +kernel⟩⟩,
   ⟨encode 251#8, by decide, ⟨_, (by decide : _ = ok (some ⟨true, 5, 4⟩)), by decide +kernel⟩⟩⟩

end Baa
