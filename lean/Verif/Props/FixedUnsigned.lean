import Verif.Props.FixedPoint

/-!
# C152: unsigned fixed-point arithmetic is exact
-/

namespace Baa
open Res

/-- What reading a value gives. -/
theorem readsUnsigned_iff (m : Mode) {w : Nat} {a : BitVecValue} {x : BitVec w} {f : Nat}
    (ha : Denotes a x) (hf : f ≤ w) (hf64 : f < 64) (q : Rat) :
    ReadsUnsigned m a f q ↔ x.toNat < 2 ^ 64 ∧ q = ((x.toNat : Int) : Rat) / ((2 ^ f : Int) : Rat) := by
  obtain ⟨h1, h2⟩ := C43_to_unsigned_fixed_point_partial m ha hf hf64
  constructor
  · rintro ⟨o, h3, h4⟩
    by_cases h : x.toNat < 2 ^ 64
    · obtain ⟨o', h5, h6⟩ := h1 h
      rw [h5] at h3
      injection h3 with h3
      injection h3 with h3
      exact ⟨h, by rw [← h4, ← h3, h6.value_eq]⟩
    · rw [h2 (by omega)] at h3
      injection h3 with h3
      cases h3
  · rintro ⟨h, rfl⟩
    obtain ⟨o, h5, h6⟩ := h1 h
    exact ⟨o, h5, h6.value_eq⟩

theorem HasUnsigned.bounds {w f : Nat} {z : Int} (h : HasUnsigned w f ((z : Rat) / ((2 ^ f : Int) : Rat))) :
    ∃ n : Nat, z = n ∧ n < 2 ^ w ∧ n < 2 ^ 64 := by
  obtain ⟨n, h1, h2, h3⟩ := h
  exact ⟨n, Rat.intCast_inj.1 (rat_div_inj (rat_pow_ne f) h3), h1, h2⟩

/-- **C152**: every such number of the width is read from some value, and nothing else is. -/
theorem C152_range (m : Mode) {w : Nat} (hw : w < 2 ^ 32) {f : Nat} (hf : f ≤ w) (hf64 : f < 64) (q : Rat) :
    HasUnsigned w f q ↔ ∃ a, Canonical a ∧ a.width = w ∧ ReadsUnsigned m a f q := by
  constructor
  · rintro ⟨n, h1, h2, rfl⟩
    have hd := encode_denotes (BitVec.ofNat w n) hw
    have e : (BitVec.ofNat w n).toNat = n := by rw [BitVec.toNat_ofNat, Nat.mod_eq_of_lt h1]
    exact ⟨_, hd.canonical, rfl, (readsUnsigned_iff m hd hf hf64 _).2 (by rw [e]; exact ⟨h2, rfl⟩)⟩
  · rintro ⟨a, ha, rfl, hr⟩
    obtain ⟨h1, h2⟩ := (readsUnsigned_iff m ha.denotes hf hf64 _).1 hr
    exact ⟨_, BitVec.isLt _, h1, h2⟩

/-- **C152**: the sum is exact whenever it has a fixed-point number. -/
theorem C152_add (m : Mode) {w : Nat} (h0 : 0 < w) {a b : BitVecValue} {x y : BitVec w} {f : Nat} {p q : Rat}
    (ha : Denotes a x) (hb : Denotes b y) (hf : f ≤ w) (hf64 : f < 64) (hp : ReadsUnsigned m a f p)
    (hq : ReadsUnsigned m b f q) (hfit : HasUnsigned w f (p + q)) :
    ∃ r, BitVecValue.add m a b = ok r ∧ ReadsUnsigned m r f (p + q) := by
  obtain ⟨_, hp⟩ := (readsUnsigned_iff m ha hf hf64 _).1 hp
  obtain ⟨_, hq⟩ := (readsUnsigned_iff m hb hf hf64 _).1 hq
  have e : p + q = (((x.toNat : Int) + (y.toNat : Int) : Int) : Rat) / ((2 ^ f : Int) : Rat) := by
    rw [hp, hq, Rat.intCast_add]; grind
  obtain ⟨r, h1, h2⟩ := C06_add m h0 ha hb
  refine ⟨r, h1, (readsUnsigned_iff m h2 hf hf64 _).2 ?_⟩
  rw [e] at hfit ⊢
  obtain ⟨n, e1, n1, n2⟩ := hfit.bounds
  have en : (x + y).toNat = n := by rw [BitVec.toNat_add, show x.toNat + y.toNat = n by omega, Nat.mod_eq_of_lt n1]
  exact ⟨by omega, by rw [en, e1]⟩

/-- **C152**: the difference is exact whenever it has a fixed-point number, that is, unless it is negative. -/
theorem C152_sub (m : Mode) {w : Nat} (h0 : 0 < w) {a b : BitVecValue} {x y : BitVec w} {f : Nat} {p q : Rat}
    (ha : Denotes a x) (hb : Denotes b y) (hf : f ≤ w) (hf64 : f < 64) (hp : ReadsUnsigned m a f p)
    (hq : ReadsUnsigned m b f q) (hle : q ≤ p) :
    ∃ r, BitVecValue.sub m a b = ok r ∧ ReadsUnsigned m r f (p - q) := by
  obtain ⟨hx, hp⟩ := (readsUnsigned_iff m ha hf hf64 _).1 hp
  obtain ⟨hy, hq⟩ := (readsUnsigned_iff m hb hf hf64 _).1 hq
  have hyx : y.toNat ≤ x.toNat := by
    refine Nat.le_of_not_lt fun h => Rat.not_lt.2 hle ?_
    rw [hp, hq, Rat.div_lt_iff (rat_pow_pos f), Rat.div_mul_cancel (rat_pow_ne f), Rat.intCast_lt_intCast]
    exact_mod_cast h
  have e : p - q = (((x.toNat : Int) - (y.toNat : Int) : Int) : Rat) / ((2 ^ f : Int) : Rat) := by
    rw [hp, hq, Rat.intCast_sub]; grind
  obtain ⟨r, h1, h2⟩ := C07_sub m h0 ha hb
  refine ⟨r, h1, (readsUnsigned_iff m h2 hf hf64 _).2 ?_⟩
  have en : (x - y).toNat = x.toNat - y.toNat := BitVec.toNat_sub_of_le (BitVec.le_def.2 hyx)
  exact ⟨by omega, by rw [en, e, Int.ofNat_sub hyx]⟩

/-- **C152**: comparison compares the numbers. -/
theorem C152_less (m : Mode) {w : Nat} {a b : BitVecValue} {x y : BitVec w} {f : Nat} {p q : Rat}
    (ha : Denotes a x) (hb : Denotes b y) (hf : f ≤ w) (hf64 : f < 64) (hp : ReadsUnsigned m a f p)
    (hq : ReadsUnsigned m b f q) : BitVecValue.isLess m a b = ok (decide (p < q)) := by
  obtain ⟨_, hp⟩ := (readsUnsigned_iff m ha hf hf64 _).1 hp
  obtain ⟨_, hq⟩ := (readsUnsigned_iff m hb hf hf64 _).1 hq
  rw [C16_is_less m ha hb]
  congr 1
  refine decide_eq_decide.2 ?_
  rw [hp, hq, Rat.div_lt_iff (rat_pow_pos f), Rat.div_mul_cancel (rat_pow_ne f), Rat.intCast_lt_intCast, Int.ofNat_lt]

/-- **C152**: zero extension adds integer bits and keeps the number. -/
theorem C152_widen (m : Mode) {w : Nat} (h0 : 0 < w) {n : Nat} (hlt : w + n < 2 ^ 32) {a : BitVecValue} {x : BitVec w} {f : Nat}
    {p : Rat} (ha : Denotes a x) (hf : f ≤ w) (hf64 : f < 64) (hp : ReadsUnsigned m a f p) :
    ∃ r, BitVecValue.zeroExtend m a n = ok r ∧ ReadsUnsigned m r f p := by
  have hp := (readsUnsigned_iff m ha hf hf64 _).1 hp
  obtain ⟨r, h1, h2, h3⟩ := C22_zero_extend_partial m ha n hlt (Or.inl h0)
  have e : (x.setWidth (w + n)).toNat = x.toNat := by rw [← h2.val_eq, h3]
  exact ⟨r, h1, (readsUnsigned_iff m h2 (by omega) hf64 _).2 (by rw [e]; exact hp)⟩

/-- **C152**: appending zero bits adds fraction bits and keeps the number, if its numerator still fits into 64 bits. -/
theorem C152_refine (m : Mode) {w : Nat} (h0 : 0 < w) {k : Nat} (hk : 0 < k) (hlt : w + k < 2 ^ 32) {a : BitVecValue}
    {x : BitVec w} {f : Nat} {p : Rat} (ha : Denotes a x) (hf : f ≤ w) (hf64 : f + k < 64) (hp : ReadsUnsigned m a f p)
    (hfit : HasUnsigned (w + k) (f + k) p) :
    ∃ r, BitVecValue.concat m a (BitVecValue.zero k) = ok r ∧ ReadsUnsigned m r (f + k) p := by
  obtain ⟨_, hp⟩ := (readsUnsigned_iff m ha hf (by omega) _).1 hp
  obtain ⟨r, h1, h2⟩ := C21_concat_partial m ha (C01_zero (w := k) (by omega)) hlt (Or.inl ⟨h0, hk⟩)
  refine ⟨r, h1, (readsUnsigned_iff m h2 (by omega) hf64 _).2 ?_⟩
  have en : (x ++ 0#k : BitVec (w + k)).toNat = x.toNat * 2 ^ k := by simp [BitVec.toNat_append, Nat.shiftLeft_eq]
  have e : p = (((x.toNat : Int) * 2 ^ k : Int) : Rat) / ((2 ^ (f + k) : Int) : Rat) := by
    rw [hp, Int.pow_add, Rat.intCast_mul, Rat.intCast_mul]
    have := rat_pow_ne k
    have := rat_pow_ne f
    exact rat_cross ‹_› (by grind) (by grind)
  rw [e] at hfit ⊢
  obtain ⟨n, e1, n1, n2⟩ := hfit.bounds
  have : x.toNat * 2 ^ k = n := by exact_mod_cast e1
  exact ⟨by omega, by rw [en]; push_cast; rfl⟩

/-- **C152**: the right shift by `k` drops `k` fraction bits and rounds down. -/
theorem C152_round (m : Mode) {w : Nat} (h0 : 0 < w) {a b : BitVecValue} {x y : BitVec w} {f : Nat} {p : Rat}
    (ha : Denotes a x) (hb : Denotes b y) (hf : f ≤ w) (hf64 : f < 64) (hk : y.toNat ≤ f) (hp : ReadsUnsigned m a f p) :
    ∃ r q, BitVecValue.shiftRight m a b = ok r ∧ ReadsUnsigned m r (f - y.toNat) q ∧
      q ≤ p ∧ p < q + 1 / ((2 ^ (f - y.toNat) : Int) : Rat) := by
  obtain ⟨hx, hp⟩ := (readsUnsigned_iff m ha hf (by omega) _).1 hp
  obtain ⟨r, h1, h2⟩ := C13_shift_right m h0 ha hb
  have h3 : (x >>> y.toNat).toNat = x.toNat / 2 ^ y.toNat := by rw [BitVec.toNat_ushiftRight, Nat.shiftRight_eq_div_pow]
  have hle : (x >>> y.toNat).toNat ≤ x.toNat := h3 ▸ Nat.div_le_self _ _
  refine ⟨r, _, h1, (readsUnsigned_iff m h2 (by omega) (by omega) _).2 ⟨by omega, rfl⟩, ?_⟩
  generalize (x >>> y.toNat).toNat = z at *
  generalize y.toNat = k at *
  obtain ⟨g, rfl⟩ : ∃ g, f = g + k := ⟨f - k, by omega⟩
  rw [Nat.add_sub_cancel]
  have hkp : 0 < 2 ^ k := Nat.two_pow_pos k
  have l1 : (z : Int) * 2 ^ k ≤ x.toNat := by
    have := Nat.div_mul_le_self x.toNat (2 ^ k)
    rw [← h3] at this
    exact_mod_cast this
  have l2 : (x.toNat : Int) < (z + 1) * 2 ^ k := by
    have := Nat.lt_div_mul_add (a := x.toNat) hkp
    rw [← h3, ← Nat.succ_mul] at this
    exact_mod_cast this
  rw [← Rat.intCast_le_intCast, Rat.intCast_mul] at l1
  rw [← Rat.intCast_lt_intCast, Rat.intCast_mul, Rat.intCast_add] at l2
  have ng := rat_pow_ne g
  have pf : 0 < ((2 ^ (g + k) : Int) : Rat) := rat_pow_pos (g + k)
  have ef : ((2 ^ (g + k) : Int) : Rat) = ((2 ^ g : Int) : Rat) * ((2 ^ k : Int) : Rat) := by
    rw [Int.pow_add, Rat.intCast_mul]
  have e1 : ((1 : Int) : Rat) = 1 := rfl
  rw [e1] at l2
  generalize ((2 ^ (g + k) : Int) : Rat) = F at *
  generalize ((2 ^ g : Int) : Rat) = G at *
  generalize ((2 ^ k : Int) : Rat) = K at *
  generalize ((z : Int) : Rat) = Z at *
  generalize ((x.toNat : Int) : Rat) = X at *
  constructor
  · refine Rat.not_lt.1 fun h => ?_
    rw [hp, Rat.div_lt_iff pf, ef] at h
    have : Z / G * (G * K) = Z * K := by grind
    grind
  · rw [hp, Rat.div_lt_iff pf, ef]
    have : (Z / G + 1 / G) * (G * K) = (Z + 1) * K := by grind
    grind

/-- **C152**: at double width the product is exact, with as many fraction bits as both operands together. -/
theorem C152_mul (m : Mode) {w : Nat} (h0 : 0 < w) (h64 : w + w ≤ 64) {a b : BitVecValue} {x y : BitVec w} {f g : Nat}
    {p q : Rat} (ha : Denotes a x) (hb : Denotes b y) (hf : f ≤ w) (hg : g ≤ w) (hfg : f + g < 64) (hp : ReadsUnsigned m a f p)
    (hq : ReadsUnsigned m b g q) :
    ∃ c d r, BitVecValue.zeroExtend m a w = ok c ∧ BitVecValue.zeroExtend m b w = ok d ∧ BitVecValue.mul m c d = ok r ∧
      ReadsUnsigned m r (f + g) (p * q) := by
  obtain ⟨_, hp⟩ := (readsUnsigned_iff m ha hf (by omega) _).1 hp
  obtain ⟨_, hq⟩ := (readsUnsigned_iff m hb hg (by omega) _).1 hq
  obtain ⟨c, c1, c2, c3⟩ := C22_zero_extend_partial m ha w (by omega) (Or.inl h0)
  obtain ⟨d, d1, d2, d3⟩ := C22_zero_extend_partial m hb w (by omega) (Or.inl h0)
  rw [c2.val_eq] at c3
  rw [d2.val_eq] at d3
  obtain ⟨r, r1, r2⟩ := C09_mul_partial m (by omega) h64 c2 d2
  have hxy : x.toNat * y.toNat < 2 ^ (w + w) := by
    rw [Nat.pow_add]; exact Nat.mul_lt_mul'' x.isLt y.isLt
  have en : (x.setWidth (w + w) * y.setWidth (w + w)).toNat = x.toNat * y.toNat := by
    rw [BitVec.toNat_mul, c3, d3, Nat.mod_eq_of_lt hxy]
  refine ⟨c, d, r, c1, d1, r1, (readsUnsigned_iff m r2 (by omega) hfg _).2 ⟨?_, ?_⟩⟩
  · rw [en]; exact Nat.lt_of_lt_of_le hxy (Nat.pow_le_pow_right (by decide) h64)
  · rw [en, hp, hq, Int.pow_add, Int.natCast_mul, Rat.intCast_mul, Rat.intCast_mul]
    have := rat_pow_ne f
    have := rat_pow_ne g
    grind

/-- `1.25 + 0.75 = 2` with a hundred bits, four of them after the point. -/
example : ∃ a b r, Denotes a (20#100) ∧ Denotes b (12#100) ∧ ReadsUnsigned .debug a 4 (5 / 4) ∧ ReadsUnsigned .debug b 4 (3 / 4) ∧
    HasUnsigned 100 4 (5 / 4 + 3 / 4) ∧ BitVecValue.add .debug a b = ok r ∧ ReadsUnsigned .debug r 4 2 :=
  ⟨encode 20#100, encode 12#100, encode 32#100, encode_denotes _ (by decide), encode_denotes _ (by decide),
    ⟨_, (by decide : _ = ok (some ⟨false, 20, 16⟩)), by decide +kernel⟩, ⟨_, (by decide : _ = ok (some ⟨false, 12, 16⟩)), by decide +kernel⟩,
    ⟨32, by decide, by decide, by decide +kernel⟩, by decide, ⟨_, (by decide : _ = ok (some ⟨false, 32, 16⟩)), by decide +kernel⟩⟩

/-- `1.25 * 0.75 = 0.9375`, and `1.1875` is rounded to `1` when two fraction bits remain. -/
example : (∃ c d r, BitVecValue.zeroExtend .debug (encode 20#8) 8 = ok c ∧ BitVecValue.zeroExtend .debug (encode 12#8) 8 = ok d ∧
      BitVecValue.mul .debug c d = ok r ∧ ReadsUnsigned .debug r 8 (15 / 16)) ∧
    (∃ r, BitVecValue.shiftRight .debug (encode 19#8) (encode 2#8) = ok r ∧ ReadsUnsigned .debug r 2 1) :=
  ⟨⟨encode 20#16, encode 12#16, encode 240#16, by decide, by decide, by decide,
    ⟨_, (by decide : _ = ok (some ⟨false, 240, 256⟩)), by decide +kernel⟩⟩,
   ⟨encode 4#8, by decide, ⟨_, (by decide : _ = ok (some ⟨false, 4, 4⟩)), by decide +kernel⟩⟩⟩

/-- The bound on the numerator is needed: above 64 bits nothing is read. -/
example : HasUnsigned 100 0 (2 ^ 63) ∧ ¬ HasUnsigned 100 0 (2 ^ 64) ∧
    BitVecValue.toUnsignedFixedPoint .debug (encode (BitVec.twoPow 100 64)) 0 = ok none := by
  refine ⟨⟨2 ^ 63, by decide, by decide, by decide +kernel⟩, ?_, by decide⟩
  intro h
  have h' : HasUnsigned 100 0 (((2 ^ 64 : Int) : Rat) / ((2 ^ 0 : Int) : Rat)) := by
    have : (((2 ^ 64 : Int) : Rat) / ((2 ^ 0 : Int) : Rat)) = 2 ^ 64 := by decide +kernel
    rw [this]; exact h
  obtain ⟨n, e, _, h2⟩ := h'.bounds
  omega

end Baa
