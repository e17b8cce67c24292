import Verif.Props.Arith
import Verif.Props.Convert
import Verif.Proofs.BytesBig

/-!
# C40 – C43: bytes, big integers, fixed point
-/

namespace Baa
open Res BitVecValue

/-! ## C40 bytes -/

/-- **C40** `to_bytes_le`: `⌈w/8⌉` bytes spelling the value. -/
theorem C40_to_bytes_le {w : Nat} {a : BitVecValue} {x : BitVec w} (ha : Denotes a x) :
    (BitVecValue.toBytesLe a).length = (w + 7) / 8 ∧ bytesVal (BitVecValue.toBytesLe a) = x.toNat := by
  unfold BitVecValue.toBytesLe
  rw [ha.width_eq, Bytes.toBytesLe_eq]
  constructor
  · rw [List.length_take, Bytes.length_flatMap, ha.length_eq]; omega
  · rw [bytesVal_take, Bytes.bytesVal_flatMap, ha.val_eq, Nat.mod_eq_of_lt]
    exact Nat.lt_of_lt_of_le x.isLt (Nat.pow_le_pow_right (by decide) (by omega))

/-- **C40** `from_bytes_le`: the little-endian number modulo `2^w`, for up to `8·⌈w/64⌉` bytes. -/
theorem C40_from_bytes_le (m : Mode) {w : Nat} (hw : w < 2 ^ 32) (bs : List Byte)
    (hb : bs.length ≤ 8 * ((w + 63) / 64)) :
    ∃ r, BitVecValue.fromBytesLe m bs w = ok r ∧ Denotes r (BitVec.ofNat w (bytesVal bs)) := by
  have hd : divCeil w BITS = (w + 63) / 64 := rfl
  have hlen := length_valueVecZeros w
  unfold BitVecValue.fromBytesLe Bytes.fromBytesLe
  dsimp only
  rw [debugAssert_decide_of (by omega), ok_bind]
  by_cases h0 : w = 0
  · subst h0
    rw [if_pos rfl, ok_bind]
    exact ⟨_, rfl, hw, rfl, rfl, by rw [BitVec.eq_nil (BitVec.ofNat 0 _)]; rfl⟩
  · rw [if_neg h0, Arith.clear_eq, hlen]
    obtain ⟨r, h1, h2, h3⟩ := Bytes.fromLoop_spec 0 bs (List.replicate ((w + 63) / 64) 0#64) (by simp; omega)
    rw [h1, ok_bind]
    rw [List.length_replicate] at h2
    obtain ⟨r', h4, h5, h6⟩ := Arith.maskMsb_bit (m := m) h2 (by omega)
    rw [h4, ok_bind]
    refine ⟨_, rfl, Denotes.of_bit hw rfl (by simp only [h5, h2]) fun i => ?_⟩
    simp only [h6, h3, bit_replicate_zero, BitVec.getLsbD_ofNat, Nat.mul_zero, Nat.zero_le, decide_true, Bool.true_and,
      Bool.false_or, Nat.sub_zero]

/-- **C40** too many bytes panic (`w ≥ 1`; at width 0 the bytes are ignored). -/
theorem C40_from_bytes_le_too_long (m : Mode) {w : Nat} (h0 : 0 < w) (bs : List Byte)
    (hb : 8 * ((w + 63) / 64) < bs.length) : Panics (BitVecValue.fromBytesLe m bs w) := by
  have hd : divCeil w BITS = (w + 63) / 64 := rfl
  have hlen := length_valueVecZeros w
  refine ⟨.bounds, ?_⟩
  unfold BitVecValue.fromBytesLe Bytes.fromBytesLe
  dsimp only
  rw [debugAssert_decide_of (by omega), ok_bind, if_neg (by omega), Arith.clear_eq, hlen,
    Bytes.fromLoop_panics 0 bs _ (by omega) (by simp; omega)]
  rfl

/-- **C40** width 0 ignores the bytes. -/
theorem C40_from_bytes_le_width_zero (m : Mode) (bs : List Byte) :
    BitVecValue.fromBytesLe m bs 0 = ok (BitVecValue.zero 0) := by cases m <;> rfl

/-- **C40** round trip. -/
theorem C40_round_trip (m : Mode) {a : BitVecValue} (ha : Canonical a) :
    BitVecValue.fromBytesLe m (BitVecValue.toBytesLe a) a.width = ok a := by
  have hd := ha.denotes
  obtain ⟨h1, h2⟩ := C40_to_bytes_le hd
  obtain ⟨r, h3, h4⟩ := C40_from_bytes_le m ha.width_lt (BitVecValue.toBytesLe a) (by omega)
  rw [h3, h2] at *
  have : BitVec.ofNat a.width (BitVec.ofNat a.width (wordsVal a.words)).toNat = BitVec.ofNat a.width (wordsVal a.words) := by
    rw [BitVec.ofNat_toNat, BitVec.setWidth_eq]
  rw [this] at h4
  rw [h4.repr_unique hd]

example : BitVecValue.toBytesLe (encode 0xf1234#72) = [0x34#8, 0x12#8, 0xf#8, 0#8, 0#8, 0#8, 0#8, 0#8, 0#8] ∧
    BitVecValue.fromBytesLe .debug [0x34#8, 0xff#8] 12 = ok (encode 0xf34#12) := by decide

/-! ## C41 big unsigned integers -/

/-- **C41** `to_big_uint` is the unsigned value (any width). -/
theorem C41_to_big_uint {w : Nat} {a : BitVecValue} {x : BitVec w} (ha : Denotes a x) :
    BitVecValue.toBigUint a = x.toNat := by
  rw [BitVecValue.toBigUint, Big.toBigUint_eq, ha.val_eq]

/-- **C41** `from_big_uint(n, w)` is `n mod 2^w` (any width). -/
theorem C41_from_big_uint (m : Mode) {w : Nat} (hw : w < 2 ^ 32) (n : Nat) :
    ∃ r, BitVecValue.fromBigUint m n w = ok r ∧ Denotes r (BitVec.ofNat w n) := by
  unfold BitVecValue.fromBigUint Big.fromBigUint
  by_cases h0 : w = 0
  · subst h0
    exact ⟨_, rfl, hw, rfl, rfl, by rw [BitVec.eq_nil (BitVec.ofNat 0 _)]; rfl⟩
  · obtain ⟨r, h1, h2, h3⟩ := Big.iterToWord_spec m (digits := Big.u64Digits n) (by omega) (length_valueVecZeros w)
    rw [h1, ok_bind]
    exact ⟨_, rfl, hw, rfl, by simp only [h2, length_valueVecZeros],
      by simp only [h3, Big.wordsVal_u64Digits, BitVec.toNat_ofNat]⟩

/-- **C41** `From<&BigUint>`: the value is kept and the width is the minimal one. (`n < 2^B` with `B ≤ 2^32 - 64`
says that the width of the number is representable as a `u32`, with one word of slack.) -/
theorem C41_of_big_uint (m : Mode) {n B : Nat} (hB : B + 64 ≤ 2 ^ 32) (hn : n < 2 ^ B) :
    ∃ r, BitVecValue.ofBigUint m n = ok r ∧ Canonical r ∧ BitVecValue.toBigUint r = n ∧
      ∀ b, n < 2 ^ b ↔ r.width ≤ b := by
  unfold BitVecValue.ofBigUint
  rw [Big.countBigUintBits_spec m hB hn, ok_bind]
  have hbits : ∀ b, n < 2 ^ b ↔ (if n = 0 then 0 else Nat.log2 n + 1) ≤ b := fun b => by
    by_cases h : n = 0
    · simp [h, Nat.two_pow_pos]
    · rw [if_neg h, ← Nat.log2_lt h]; omega
  have hw : (if n = 0 then 0 else Nat.log2 n + 1) < 2 ^ 32 := by
    have := (hbits B).mp hn
    omega
  obtain ⟨r, h1, h2⟩ := C41_from_big_uint m hw n
  refine ⟨r, h1, h2.canonical, ?_, fun b => by rw [h2.width_eq]; exact hbits b⟩
  rw [C41_to_big_uint h2, BitVec.toNat_ofNat, Nat.mod_eq_of_lt]
  exact (hbits _).mpr (Nat.le_refl _)

example : ∃ r, BitVecValue.ofBigUint .debug (2 ^ 100 + 5) = ok r ∧ BitVecValue.toBigUint r = 2 ^ 100 + 5 ∧
    2 ^ 100 + 5 < 2 ^ 101 :=
  let ⟨r, h1, _, h2, _⟩ := C41_of_big_uint .debug (n := 2 ^ 100 + 5) (B := 101) (by decide) (by decide)
  ⟨r, h1, h2, by decide⟩

/-! ## C42 big signed integers -/

/-- **C42** `to_big_int` is the two's complement value (any width). -/
theorem C42_to_big_int (m : Mode) {w : Nat} {a : BitVecValue} {x : BitVec w} (ha : Denotes a x) :
    BitVecValue.toBigInt m a = ok x.toInt := by
  unfold BitVecValue.toBigInt Big.toBigInt
  rw [ha.width_eq]
  by_cases h0 : w = 0
  · subst h0
    rw [if_pos rfl, BitVec.eq_nil x]; rfl
  · rw [if_neg h0]
    have hs : Big.getSign m a.words w = Arith.isNeg m a.words w := rfl
    rw [hs, Arith.isNeg_spec (by omega) ha.length_eq, ok_bind, ha.bit]
    have hti := toInt_of_bit x
    have hx := x.isLt
    by_cases hn : x.getLsbD (w - 1) = true
    · rw [if_pos hn] at hti
      rw [if_pos hn, Arith.negate, if_pos (by simp)]
      obtain ⟨r, h1, h2, h3⟩ := Arith.negateInPlace_spec' (m := m) (d := a.words) (width := w) (by omega) ha.length_eq
        (by rw [ha.val_eq]; exact hx)
      rw [h1, ok_bind, show Big.fromSlice32 (Big.wordsToU32 r) = wordsVal r from Big.toBigUint_eq r, h3, ha.val_eq]
      simp only [hn, if_true]
      congr 1
      have hmsb := BitVec.msb_eq_decide x
      rw [BitVec.msb_eq_getLsbD_last, hn] at hmsb
      have hge : 2 ^ (w - 1) ≤ x.toNat := by simpa using hmsb.symm
      have hp : 0 < 2 ^ (w - 1) := Nat.two_pow_pos _
      rw [Nat.mod_eq_of_lt (by omega), hti]
      have : ((2 ^ w : Nat) : Int) = (2 : Int) ^ w := by norm_cast
      omega
    · have hn' : x.getLsbD (w - 1) = false := by simpa using hn
      rw [if_neg hn] at hti
      rw [if_neg hn, ok_bind, show Big.fromSlice32 (Big.wordsToU32 a.words) = wordsVal a.words from Big.toBigUint_eq _,
        ha.val_eq]
      simp only [hn', Bool.false_eq_true, if_false, hti]

/-- **C42** `from_big_int(z, w)` is `z mod 2^w` in two's complement. -/
theorem C42_from_big_int (m : Mode) {w : Nat} (h0 : 0 < w) (hw : w < 2 ^ 32) (z : Int) :
    ∃ r, BitVecValue.fromBigInt m z w = ok r ∧ Denotes r (BitVec.ofInt w z) := by
  unfold BitVecValue.fromBigInt Big.fromBigInt
  obtain ⟨r, h1, h2, h3⟩ := Big.iterToWord_spec m (digits := Big.u64Digits z.natAbs) h0 (length_valueVecZeros w)
  rw [length_valueVecZeros] at h2
  rw [Big.wordsVal_u64Digits] at h3
  rw [h1, ok_bind]
  have hp : ((2 ^ w : Nat) : Int) = (2 : Int) ^ w := by norm_cast
  have hpos := Nat.two_pow_pos w
  by_cases hz : z < 0
  · rw [if_pos hz, Arith.negate, if_pos rfl]
    obtain ⟨r', h4, h5, h6⟩ := Arith.negateInPlace_spec' (m := m) (d := r) (width := w) h0 h2
      (by rw [h3]; exact Nat.mod_lt _ hpos)
    rw [h4, ok_bind]
    refine ⟨_, rfl, hw, rfl, by simp only [h5], ?_⟩
    simp only [h6, h3]
    obtain ⟨n, hn⟩ : ∃ n : Nat, z = -(n : Int) := ⟨z.natAbs, by omega⟩
    have hna : z.natAbs = n := by omega
    have e : BitVec.ofInt w z = -(BitVec.ofNat w n) := by
      apply BitVec.eq_of_toInt_eq
      rw [BitVec.toInt_ofInt, BitVec.toInt_neg, BitVec.toInt_ofNat', hn]
      simp
    rw [e, BitVec.toNat_neg, BitVec.toNat_ofNat, hna]
  · rw [if_neg hz, ok_bind]
    refine ⟨_, rfl, hw, rfl, by simp only [h2], ?_⟩
    simp only [h3]
    rw [BitVec.toNat_ofInt]
    obtain ⟨n, hn⟩ : ∃ n : Nat, z = (n : Int) := ⟨z.natAbs, by omega⟩
    subst hn
    simp
    norm_cast

/-- At width 0, `from_big_int` of a negative number panics (the width is outside C42). -/
theorem C42_from_big_int_width_zero (m : Mode) (z : Int) :
    (0 ≤ z → BitVecValue.fromBigInt m z 0 = ok (BitVecValue.zero 0)) ∧
    (z < 0 → Panics (BitVecValue.fromBigInt m z 0)) := by
  unfold BitVecValue.fromBigInt Big.fromBigInt Big.iterToWord
  constructor
  · intro h
    rw [if_pos rfl, ok_bind, if_neg (by omega)]; rfl
  · intro h
    rw [if_pos rfl, ok_bind, if_pos h]
    exact ⟨.unwrap, by cases m <;> rfl⟩

/-- **C42** `From<&BigInt>` is inverted by `to_big_int`. -/
theorem C42_of_big_int (m : Mode) {z : Int} {B : Nat} (hB : B + 64 ≤ 2 ^ 32) (hz : z.natAbs < 2 ^ B) :
    ∃ r, BitVecValue.ofBigInt m z = ok r ∧ Canonical r ∧ BitVecValue.toBigInt m r = ok z := by
  unfold BitVecValue.ofBigInt
  rw [Big.countBigIntBits_spec m hB hz, ok_bind]
  have hbits : ∃ b, (if z = 0 then 1 else Nat.log2 z.natAbs + 2) = b + 1 ∧ z.natAbs < 2 ^ b ∧ b ≤ B := by
    by_cases h : z = 0
    · exact ⟨0, by simp [h], by simp [h], by omega⟩
    · have h0 : z.natAbs ≠ 0 := by omega
      exact ⟨Nat.log2 z.natAbs + 1, by simp [h], Nat.lt_log2_self, Big.log2_lt_of_lt h0 hz⟩
  obtain ⟨b, hb1, hb2, hb3⟩ := hbits
  rw [hb1]
  obtain ⟨r, h1, h2⟩ := C42_from_big_int m (w := b + 1) (by omega) (by omega) z
  refine ⟨r, h1, h2.canonical, ?_⟩
  rw [C42_to_big_int m h2, toInt_ofInt_of_fits (by omega)]
  have hp : ((2 ^ b : Nat) : Int) = (2 : Int) ^ b := by norm_cast
  unfold FitsSigned
  rw [Nat.add_sub_cancel]
  constructor <;> omega

/-- **C42** round trip from values. -/
theorem C42_round_trip (m : Mode) {a : BitVecValue} (h0 : 0 < a.width) (ha : Canonical a) :
    ∃ z, BitVecValue.toBigInt m a = ok z ∧ BitVecValue.fromBigInt m z a.width = ok a := by
  have hd := ha.denotes
  refine ⟨_, C42_to_big_int m hd, ?_⟩
  obtain ⟨r, h1, h2⟩ := C42_from_big_int m h0 ha.width_lt (BitVec.ofNat a.width (wordsVal a.words)).toInt
  rw [BitVec.ofInt_toInt] at h2
  rw [h1, h2.repr_unique hd]

example : BitVecValue.toBigInt .debug (encode (-12345678901234567890123#100)) = ok (-12345678901234567890123) ∧
    (-12345678901234567890123 : Int).natAbs < 2 ^ 90 := by decide

/-! ## C43 fixed point -/

/-- **C43, full statement** (false of the code for fraction widths of 64 and more, see `C43_refuted`). -/
def C43_statement : Prop :=
  ∀ (m : Mode) {w : Nat} {a : BitVecValue} {x : BitVec w} (f : Nat), Denotes a x → f ≤ w →
    (x.toNat < 2 ^ 64 → ∃ q, BitVecValue.toUnsignedFixedPoint m a f = ok (some q) ∧ q.Is x.toNat (2 ^ f)) ∧
    (0 < w → ∃ o, BitVecValue.toSignedFixedPoint m a f = ok o ∧ ∀ q, o = some q → q.Is x.toInt (2 ^ f))

theorem toUnsignedFixedPoint_eq (m : Mode) {w : Nat} {a : BitVecValue} {x : BitVec w} {f : Nat} (ha : Denotes a x)
    (hf : f ≤ w) (hf64 : f < 64) :
    BitVecValue.toUnsignedFixedPoint m a f =
      ok (if x.toNat < 2 ^ 64 then some ⟨false, x.toNat, 2 ^ f⟩ else none) := by
  unfold BitVecValue.toUnsignedFixedPoint
  have hs : shiftAmount64 m f = ok f := by simp [shiftAmount64, hf64]
  rw [ha.width_eq, debugAssert_decide_of hf, ok_bind, hs, ok_bind, C03_to_u64 ha]
  by_cases h : x.toNat < 2 ^ 64
  · rw [if_pos h, if_pos h]
    dsimp only
    rw [Option.map_some, BitVec.toNat_ofNat, Nat.mod_eq_of_lt h]
  · rw [if_neg h, if_neg h]; rfl

/-- **C43, proved part**, unsigned: exact for all fraction widths below 64. Missing: fraction widths of 64 or more. -/
theorem C43_to_unsigned_fixed_point_partial (m : Mode) {w : Nat} {a : BitVecValue} {x : BitVec w} {f : Nat}
    (ha : Denotes a x) (hf : f ≤ w) (hf64 : f < 64) :
    (x.toNat < 2 ^ 64 → ∃ q, BitVecValue.toUnsignedFixedPoint m a f = ok (some q) ∧ q.Is x.toNat (2 ^ f)) ∧
    (2 ^ 64 ≤ x.toNat → BitVecValue.toUnsignedFixedPoint m a f = ok none) := by
  rw [toUnsignedFixedPoint_eq m ha hf hf64]
  have hp := Nat.two_pow_pos f
  constructor
  · intro h
    rw [if_pos h]
    exact ⟨_, rfl, by simp only; omega, by omega, rfl⟩
  · intro h
    rw [if_neg (by omega)]

/-- **C43, proved part**, signed: whenever a fraction is returned it is the two's complement value over `2^f`; and a
fraction is returned for every value of width at most 64 and every non-negative value below `2^64`.
Missing: fraction widths of 64 or more. -/
theorem C43_to_signed_fixed_point_partial (m : Mode) {w : Nat} (h0 : 0 < w) {a : BitVecValue} {x : BitVec w} {f : Nat}
    (ha : Denotes a x) (hf : f ≤ w) (hf64 : f < 64) :
    (∃ o, BitVecValue.toSignedFixedPoint m a f = ok o ∧ ∀ q, o = some q → q.Is x.toInt (2 ^ f)) ∧
    ((w ≤ 64 ∨ (0 ≤ x.toInt ∧ x.toInt < 2 ^ 64)) →
      ∃ q, BitVecValue.toSignedFixedPoint m a f = ok (some q) ∧ q.Is x.toInt (2 ^ f)) := by
  have hp := Nat.two_pow_pos f
  have hti := toInt_of_bit x
  have hx := x.isLt
  have hmsb := BitVec.msb_eq_decide x
  rw [BitVec.msb_eq_getLsbD_last] at hmsb
  have hpw : ((2 ^ w : Nat) : Int) = (2 : Int) ^ w := by norm_cast
  unfold BitVecValue.toSignedFixedPoint
  rw [ha.width_eq, debugAssert_decide_of hf, ok_bind, (C25_is_negative m h0 ha).1, ok_bind, BitVec.msb_eq_getLsbD_last]
  by_cases hn : x.getLsbD (w - 1) = true
  · rw [if_pos hn] at hti
    rw [if_pos hn]
    by_cases hw : w > 64
    · rw [if_pos hw]
      exact ⟨⟨none, rfl, fun q h => by cases h⟩, fun h => by omega⟩
    · obtain ⟨r, h1, h2⟩ := C08_negate m h0 ha
      have hlt : (-x).toNat < 2 ^ 64 := Nat.lt_of_lt_of_le (-x).isLt (Nat.pow_le_pow_right (by decide) (by omega))
      rw [if_neg hw, h1, ok_bind, toUnsignedFixedPoint_eq m h2 hf hf64, if_pos hlt, ok_bind]
      have hq : (⟨true, (-x).toNat, 2 ^ f⟩ : Fraction).Is x.toInt (2 ^ f) := by
        refine ⟨by simp only; omega, by omega, ?_⟩
        simp only [if_true]
        congr 1
        rw [hn] at hmsb
        have hge : 2 ^ (w - 1) ≤ x.toNat := by simpa using hmsb.symm
        have := Nat.two_pow_pos (w - 1)
        rw [BitVec.toNat_neg, Nat.mod_eq_of_lt (by omega), hti]
        omega
      exact ⟨⟨_, rfl, fun q h => by cases h; exact hq⟩, fun _ => ⟨_, rfl, hq⟩⟩
  · rw [if_neg hn] at hti
    rw [if_neg hn, toUnsignedFixedPoint_eq m ha hf hf64]
    by_cases h : x.toNat < 2 ^ 64
    · rw [if_pos h]
      have hq : (⟨false, x.toNat, 2 ^ f⟩ : Fraction).Is x.toInt (2 ^ f) := by
        refine ⟨by simp only; omega, by omega, ?_⟩
        rw [hti]; rfl
      exact ⟨⟨_, rfl, fun q h => by cases h; exact hq⟩, fun _ => ⟨_, rfl, hq⟩⟩
    · rw [if_neg h]
      refine ⟨⟨none, rfl, fun q h => by cases h⟩, fun h' => ?_⟩
      exfalso
      rcases h' with h' | h'
      · have : 2 ^ w ≤ 2 ^ 64 := Nat.pow_le_pow_right (by decide) h'
        omega
      · omega

/-- **C43 is false of the code**: with fraction width 64 a debug build panics (shift overflow) … -/
theorem C43_refuted : ¬ C43_statement := fun h => by
  obtain ⟨q, h1, _⟩ := (h .debug 64 (encode_denotes 1#64 (by decide)) (by decide)).1 (by decide)
  have e : BitVecValue.toUnsignedFixedPoint .debug (encode 1#64) 64 = Res.panic .overflow := by decide
  rw [e] at h1
  cases h1

/-- … and a release build returns a fraction with the wrong denominator, for every value: `1/2^64` becomes `1/1`. -/
theorem C43_release_wrong_denominator {w : Nat} {a : BitVecValue} {x : BitVec w} {f : Nat} (ha : Denotes a x)
    (hf64 : 64 ≤ f) (hx : x.toNat < 2 ^ 64) :
    BitVecValue.toUnsignedFixedPoint .release a f = ok (some ⟨false, x.toNat, 2 ^ (f % 64)⟩) := by
  unfold BitVecValue.toUnsignedFixedPoint
  have hs : shiftAmount64 .release f = ok (f % 64) := by
    have : ¬ f < 64 := by omega
    simp [shiftAmount64, this]
  rw [hs, C03_to_u64 ha, if_pos hx]
  show ok (some (⟨false, _, _⟩ : Fraction)) = _
  rw [BitVec.toNat_ofNat, Nat.mod_eq_of_lt hx]

example : BitVecValue.toSignedFixedPoint .debug (encode (-6#8)) 2 = ok (some ⟨true, 6, 4⟩) ∧
    BitVecValue.toUnsignedFixedPoint .debug (encode 6#100) 2 = ok (some ⟨false, 6, 4⟩) := by decide

end Baa
