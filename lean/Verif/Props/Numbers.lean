import Verif.Props.Algorithms
import Verif.Spec.Numbers

/-!
# C153: greatest common divisors, modular powers and square roots
-/

namespace Baa
open Res

variable (m : Mode) {w : Nat} {a b n : BitVecValue} {x y z : BitVec w}

/-! ## Euclid's algorithm -/

theorem pos_of_ne_zero_bv (hy : y ≠ 0#w) : 0 < y.toNat :=
  Nat.pos_of_ne_zero fun e => hy (BitVec.eq_of_toNat_eq (by simpa using e))

/-- One round. -/
theorem euclid_step (hw : 0 < w) (hlt : w + 1 < 2 ^ 32) (ha : Denotes a x) (hb : Denotes b y) (k : Nat) :
    (y = 0#w → euclid m (k + 1) a b = ok (some a)) ∧
    (y ≠ 0#w → ∃ r, Denotes r (x % y) ∧ euclid m (k + 1) a b = euclid m k b r) := by
  constructor
  · rintro rfl
    unfold euclid
    rw [C25_is_zero hb, decide_eq_true rfl, if_pos rfl]
  · intro hy
    obtain ⟨q, r, h1, h2, _⟩ := C135_divide m hw hlt ha hb
    refine ⟨r, (h2 hy).2, ?_⟩
    rw [euclid, C25_is_zero hb, decide_eq_false hy, if_neg (by decide), ha.width_eq, h1, ok_bind]

theorem gcd_step_nat (x y : Nat) : Nat.gcd y (x % y) = Nat.gcd x y := by
  rw [Nat.gcd_comm, ← Nat.gcd_rec, Nat.gcd_comm]

theorem mod_mod_half {x y : Nat} (hy : 0 < y) (hr : 0 < x % y) : 2 * (y % (x % y)) < y := by
  have h1 := Nat.mod_lt x hy
  have h2 := Nat.mod_lt y hr
  have h3 := Nat.div_add_mod y (x % y)
  have h4 : 1 ≤ y / (x % y) := (Nat.one_le_div_iff hr).2 (by omega)
  have h5 : x % y * 1 ≤ x % y * (y / (x % y)) := Nat.mul_le_mul_left _ h4
  omega

theorem euclid_spec (hw : 0 < w) (hlt : w + 1 < 2 ^ 32) : ∀ (j : Nat) {a b : BitVecValue} {x y : BitVec w}, Denotes a x → Denotes b y →
    y.toNat < 2 ^ j → ∀ k, 2 * j + 1 ≤ k →
    ∃ g z, euclid m k a b = ok (some g) ∧ Denotes g (z : BitVec w) ∧ z.toNat = Nat.gcd x.toNat y.toNat := by
  intro j
  induction j with
  | zero =>
    intro a b x y ha hb h k hk
    obtain ⟨k, rfl⟩ : ∃ l, k = l + 1 := ⟨k - 1, by omega⟩
    have hy : y.toNat = 0 := by omega
    exact ⟨a, x, (euclid_step m hw hlt ha hb k).1 (BitVec.eq_of_toNat_eq (by simpa using hy)), ha, by simp [hy]⟩
  | succ j ih =>
    intro a b x y ha hb h k hk
    obtain ⟨k, rfl⟩ : ∃ l, k = l + 1 + 1 := ⟨k - 2, by omega⟩
    by_cases hy : y = 0#w
    · exact ⟨a, x, (euclid_step m hw hlt ha hb _).1 hy, ha, by simp [hy]⟩
    obtain ⟨r, dr, e⟩ := (euclid_step m hw hlt ha hb (k + 1)).2 hy
    rw [e, ← gcd_step_nat, ← BitVec.toNat_umod]
    by_cases hr : x % y = 0#w
    · exact ⟨b, y, (euclid_step m hw hlt hb dr _).1 hr, hb, by simp [hr]⟩
    obtain ⟨s, ds, e⟩ := (euclid_step m hw hlt hb dr k).2 hr
    rw [e, ← gcd_step_nat, ← BitVec.toNat_umod (x := y)]
    refine ih dr ds ?_ k (by omega)
    have := mod_mod_half (x := x.toNat) (pos_of_ne_zero_bv hy) (by rw [← BitVec.toNat_umod]; exact pos_of_ne_zero_bv hr)
    rw [BitVec.toNat_umod, BitVec.toNat_umod]
    rw [Nat.pow_succ] at h
    omega

/-- **C153** Euclid's algorithm ends after at most `2 * w + 1` rounds, with the greatest common divisor. -/
theorem C153_gcd (hw : 0 < w) (hlt : w + 1 < 2 ^ 32) (ha : Denotes a x) (hb : Denotes b y) {k : Nat} (hk : 2 * w + 1 ≤ k) :
    ∃ g z, euclid m k a b = ok (some g) ∧ Denotes g (z : BitVec w) ∧ z.toNat = Nat.gcd x.toNat y.toNat :=
  euclid_spec m hw hlt w ha hb y.isLt k hk

example : ∃ a b g, Denotes a (7 * 2 ^ 66 : BitVec 70) ∧ Denotes b (3 * 2 ^ 65 : BitVec 70) ∧ euclid .debug 141 a b = ok (some g) ∧
    Denotes g (2 ^ 65 : BitVec 70) :=
  ⟨encode (7 * 2 ^ 66), encode (3 * 2 ^ 65), encode (2 ^ 65), encode_denotes _ (by decide), encode_denotes _ (by decide),
    by decide +kernel, encode_denotes _ (by decide)⟩

/-! ## Products at double width -/

theorem setWidth_double (x : BitVec w) (v : Nat) : (x.setWidth (w + v)).toNat = x.toNat := by
  rw [BitVec.toNat_setWidth, Nat.mod_eq_of_lt (Nat.lt_of_lt_of_le x.isLt (Nat.pow_le_pow_right (by decide) (by omega)))]

theorem productWide_spec (hw : 0 < w) (hlt : w + w < 2 ^ 32) (ha : Denotes a x) (hb : Denotes b y) :
    ∃ p u, productWide m a b = ok p ∧ Denotes p (u : BitVec (w + w)) ∧ u.toNat = x.toNat * y.toNat := by
  obtain ⟨c, h1, d1, _⟩ := C22_zero_extend_partial m ha w hlt (.inl hw)
  obtain ⟨d, h2, d2, _⟩ := C22_zero_extend_partial m hb w hlt (.inl hw)
  obtain ⟨p, h3, d3⟩ := C135_multiply m (by omega) d1 d2
  refine ⟨p, _, ?_, d3, ?_⟩
  · rw [productWide, ha.width_eq, h1, ok_bind, h2, ok_bind, h3]
  · rw [BitVec.toNat_mul, setWidth_double, setWidth_double, Nat.mod_eq_of_lt]
    rw [Nat.pow_add]; exact Nat.mul_lt_mul'' x.isLt y.isLt

theorem slice_down {v : Nat} {c : BitVecValue} {u : BitVec v} (hw : 0 < w) (hv : w ≤ v) (hc : Denotes c u) :
    ∃ r, BitVecValue.slice m c (w - 1) 0 = ok r ∧ Denotes r (BitVec.ofNat w u.toNat) := by
  obtain ⟨r, h, d⟩ := C19_slice m hc (msb := w - 1) (lsb := 0) (by omega) (Nat.zero_le _)
  refine ⟨r, h, ?_⟩
  have e : w - 1 - 0 + 1 = w := by omega
  refine ⟨by rw [← e]; exact d.width_lt, by rw [d.width_eq, e], by rw [d.length_eq, e], ?_⟩
  rw [d.val_eq, BitVec.extractLsb'_toNat, BitVec.toNat_ofNat, e, Nat.shiftRight_zero]

/-- **C153** The product modulo a number, at every width. -/
theorem C153_mul_mod (hw : 0 < w) (hlt : w + w + 1 < 2 ^ 32) (hn : Denotes n z) (ha : Denotes a x) (hb : Denotes b y) (hz : z ≠ 0#w) :
    ∃ r u, mulMod m n a b = ok r ∧ Denotes r (u : BitVec w) ∧ u.toNat = x.toNat * y.toNat % z.toNat := by
  have hz0 := pos_of_ne_zero_bv hz
  obtain ⟨p, u, h1, d1, e1⟩ := productWide_spec m hw (by omega) ha hb
  obtain ⟨n', h2, d2, _⟩ := C22_zero_extend_partial m hn w (by omega) (.inl hw)
  have hne : z.setWidth (w + w) ≠ 0#(w + w) := fun h => by
    have := congrArg BitVec.toNat h
    rw [setWidth_double] at this
    simp at this
    omega
  obtain ⟨q, r, h3, h4, _⟩ := C135_divide m (by omega) hlt d1 d2
  obtain ⟨s, h5, d5⟩ := slice_down m hw (by omega) (h4 hne).2
  refine ⟨s, _, ?_, d5, ?_⟩
  · rw [mulMod, h1, ok_bind, ha.width_eq, h2, ok_bind, d1.width_eq, h3, ok_bind]; exact h5
  · have hzw := z.isLt
    have := Nat.mod_lt (x.toNat * y.toNat) hz0
    rw [BitVec.toNat_ofNat, BitVec.toNat_umod, setWidth_double, e1, Nat.mod_eq_of_lt (by omega)]

/-! ## Modular powers -/

theorem powMod_loop (hw : 0 < w) (hlt : w + w + 1 < 2 ^ 32) {e : BitVecValue} (hn : Denotes n z) (he : Denotes e y) (hz : z ≠ 0#w) :
    ∀ (k i : Nat), i + k ≤ w → ∀ {s acc : BitVecValue} {u v : BitVec w}, Denotes s u → Denotes acc v → v.toNat < z.toNat →
    ∃ r t, powMod m n e (List.range' i k) s acc = ok r ∧ Denotes r (t : BitVec w) ∧
      t.toNat = v.toNat * u.toNat ^ (y.toNat / 2 ^ i % 2 ^ k) % z.toNat := by
  intro k
  induction k with
  | zero =>
    intro i _ s acc u v _ hv hlt
    exact ⟨acc, v, rfl, hv, by rw [Nat.pow_zero 2, Nat.mod_one, Nat.pow_zero, Nat.mul_one, Nat.mod_eq_of_lt hlt]⟩
  | succ k ih =>
    intro i hi s acc u v hs hv hvz
    have hz0 := pos_of_ne_zero_bv hz
    obtain ⟨s', u', h1, d1, e1⟩ := C153_mul_mod m hw hlt hn hs hs hz
    have hbits : y.toNat / 2 ^ i % 2 ^ (k + 1) = (y.getLsbD i).toNat + 2 * (y.toNat / 2 ^ (i + 1) % 2 ^ k) := by
      rw [Nat.pow_succ', Nat.mod_mul, Nat.div_div_eq_div_mul, ← Nat.pow_succ, BitVec.getLsbD, Nat.testBit_eq_decide_div_mod_eq]
      congr 1
      rcases Nat.mod_two_eq_zero_or_one (y.toNat / 2 ^ i) with h | h <;> simp [h]
    have hpow : ∀ j, u'.toNat ^ j % z.toNat = u.toNat ^ (2 * j) % z.toNat := fun j => by
      rw [e1, ← Nat.pow_mod, Nat.pow_mul, Nat.pow_two]
    unfold powMod List.range'
    simp only
    rw [C24_is_bit_set he (by omega), ok_bind]
    by_cases hc : y.getLsbD i = true
    · obtain ⟨acc', v', h2, d2, e2⟩ := C153_mul_mod m hw hlt hn hv hs hz
      obtain ⟨r, t, h3, d3, e3⟩ := ih (i + 1) (by omega) d1 d2 (by rw [e2]; exact Nat.mod_lt _ hz0)
      refine ⟨r, t, ?_, d3, ?_⟩
      · rw [if_pos hc, h2, ok_bind, h1, ok_bind, h3]
      · rw [e3, hbits, hc, Nat.mul_mod, hpow, ← Nat.mul_mod, e2, Nat.mod_mul_mod, Nat.mul_assoc, Bool.toNat_true,
          Nat.pow_add u.toNat, Nat.pow_one]
    · obtain ⟨r, t, h3, d3, e3⟩ := ih (i + 1) (by omega) d1 hv hvz
      refine ⟨r, t, ?_, d3, ?_⟩
      · rw [if_neg hc, ok_bind, h1, ok_bind, h3]
      · have hc : y.getLsbD i = false := by simpa using hc
        rw [e3, hbits, hc, Nat.mul_mod, hpow, ← Nat.mul_mod, Bool.toNat_false, Nat.zero_add]

/-- **C153** Square and multiply computes powers modulo a number greater than one, at every width. -/
theorem C153_pow_mod (hw : 0 < w) (hlt : w + w + 1 < 2 ^ 32) {e : BitVecValue} (hn : Denotes n z) (ha : Denotes a x) (he : Denotes e y)
    (hz : 1 < z.toNat) {one : BitVecValue} (h1 : Denotes one (1#w)) :
    ∃ r t, powMod m n e (List.range w) a one = ok r ∧ Denotes r (t : BitVec w) ∧ t.toNat = x.toNat ^ y.toNat % z.toNat := by
  have e1 : (1#w).toNat = 1 := by
    rw [BitVec.toNat_ofNat, Nat.mod_eq_of_lt (Nat.one_lt_two_pow (by omega))]
  have hz0 : z ≠ 0#w := fun h => by rw [h] at hz; simp at hz
  obtain ⟨r, t, h, d, e⟩ := powMod_loop m hw hlt hn he hz0 w 0 (by omega) ha h1 (by omega)
  refine ⟨r, t, by rw [List.range_eq_range']; exact h, d, ?_⟩
  rw [e, e1, Nat.one_mul, Nat.pow_zero, Nat.div_one, Nat.mod_eq_of_lt y.isLt]

example : powMod .debug (encode 251#8) (encode 77#8) (List.range 8) (encode 200#8) (encode 1#8) = ok (encode (BitVec.ofNat 8 (200 ^ 77 % 251))) := by
  decide +kernel

/-! ## Square roots -/

theorem squareRoot_loop (hw : 0 < w) (hlt : w + w < 2 ^ 32) (ha : Denotes a x) : ∀ (i : Nat), i ≤ w → ∀ {r : BitVecValue} {u : BitVec w},
    Denotes r u → u.toNat % 2 ^ i = 0 → u.toNat * u.toNat ≤ x.toNat → x.toNat < (u.toNat + 2 ^ i) * (u.toNat + 2 ^ i) →
    ∃ s t, squareRoot m a i r = ok s ∧ Denotes s (t : BitVec w) ∧ t.toNat * t.toNat ≤ x.toNat ∧
      x.toNat < (t.toNat + 1) * (t.toNat + 1) := by
  intro i
  induction i with
  | zero =>
    intro _ r u hr _ h1 h2
    exact ⟨r, u, rfl, hr, h1, by simpa using h2⟩
  | succ i ih =>
    intro hi r u hr hm h1 h2
    obtain ⟨c, v, h3, d3, hv⟩ := C24_set_bit hr (pos := i) (by omega)
    have hvn : v.toNat = u.toNat + 2 ^ i := by
      have e : v = u ||| BitVec.twoPow w i := by
        apply BitVec.eq_of_getLsbD_eq
        intro j hj
        rw [hv, BitVec.getLsbD_or, BitVec.getLsbD_twoPow]
        by_cases e : i = j
        · simp [e, hj]
        · simp [e, Ne.symm e]
      obtain ⟨k, hk⟩ : ∃ k, u.toNat = 2 ^ (i + 1) * k := ⟨u.toNat / 2 ^ (i + 1), by have := Nat.div_add_mod u.toNat (2 ^ (i + 1)); omega⟩
      rw [e, BitVec.toNat_or, BitVec.toNat_twoPow, Nat.mod_eq_of_lt (Nat.pow_lt_pow_right (by omega) (by omega)), hk,
        Nat.two_pow_add_eq_or_of_lt (Nat.pow_lt_pow_right (by omega) (by omega))]
    obtain ⟨p, q, h4, d4, e4⟩ := productWide_spec m hw hlt d3 d3
    obtain ⟨a', h5, d5, _⟩ := C22_zero_extend_partial m ha w hlt (.inl hw)
    have h6 := C16_is_less m d5 d4
    rw [setWidth_double, e4, hvn] at h6
    have hmi : u.toNat % 2 ^ i = 0 := Nat.mod_eq_zero_of_dvd
      (Nat.dvd_trans (Nat.pow_dvd_pow 2 (Nat.le_succ i)) (Nat.dvd_of_mod_eq_zero hm))
    rw [squareRoot, h3, ok_bind, h4, ok_bind, ha.width_eq, h5, ok_bind, h6, ok_bind]
    by_cases hc : x.toNat < (u.toNat + 2 ^ i) * (u.toNat + 2 ^ i)
    · rw [decide_eq_true hc, if_pos rfl]
      exact ih (by omega) hr hmi h1 hc
    · rw [decide_eq_false hc, if_neg (by decide)]
      refine ih (by omega) d3 (by rw [hvn, Nat.add_mod_right, hmi]) (by rw [hvn]; omega) ?_
      rw [hvn, Nat.add_assoc, ← Nat.two_mul, Nat.mul_comm 2, ← Nat.pow_succ]
      exact h2

/-- **C153** The integer square root, at every width: the greatest number whose square is not greater. -/
theorem C153_square_root (hw : 0 < w) (hlt : w + w < 2 ^ 32) (ha : Denotes a x) :
    ∃ s t, squareRoot m a ((w + 1) / 2) (BitVecValue.zero w) = ok s ∧ Denotes s (t : BitVec w) ∧
      t.toNat * t.toNat ≤ x.toNat ∧ x.toNat < (t.toNat + 1) * (t.toNat + 1) := by
  refine squareRoot_loop m hw hlt ha _ (by omega) (C01_zero ha.width_lt) (by simp) (by simp) ?_
  rw [BitVec.toNat_ofNat, Nat.zero_mod, Nat.zero_add, ← Nat.pow_add]
  exact Nat.lt_of_lt_of_le x.isLt (Nat.pow_le_pow_right (by decide) (by omega))

example : ∃ a s, Denotes a (BitVec.allOnes 70) ∧ squareRoot .debug a 35 (BitVecValue.zero 70) = ok s ∧ Denotes s (34359738367#70) :=
  ⟨encode (BitVec.allOnes 70), encode 34359738367#70, encode_denotes _ (by decide), by decide +kernel, encode_denotes _ (by decide)⟩

end Baa
