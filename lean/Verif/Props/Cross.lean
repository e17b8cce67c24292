import Verif.Props.Parse
import Verif.Props.BytesBig
import Verif.Props.Convert

/-!
# C71: all representations of a value show the same number
-/

namespace Baa
open Res

/-- **C71** The binary, hexadecimal and decimal strings, the bytes, the big integer and the machine integer of a value all
show the same number. -/
theorem C71_unsigned (m : Mode) {w : Nat} (h0 : 0 < w) {a : BitVecValue} {x : BitVec w} (ha : Denotes a x) :
    ∃ n bits hex, n < 2 ^ w ∧
      BitVecValue.toBitStr a = ok bits ∧ digitsVal 2 bits = some n ∧
      BitVecValue.toHexStr m a = ok hex ∧ digitsVal 16 hex = some n ∧
      bytesVal (BitVecValue.toBytesLe a) = n ∧
      BitVecValue.toBigUint a = n ∧
      (∀ v, BitVecValue.toU64 a = some v ↔ v.toNat = n) ∧
      (n < 2 ^ 128 → w * 3 < 2 ^ 32 → ∃ dec, BitVecValue.toDecStr m a = ok dec ∧ digitsVal 10 dec = some n) := by
  obtain ⟨bits, h1, _, h2⟩ := C30_to_bit_str_value h0 ha
  obtain ⟨hex, h3, _, _, h4⟩ := C31_to_hex_str m h0 ha
  refine ⟨x.toNat, bits, hex, x.isLt, h1, h2, h3, h4, (C40_to_bytes_le ha).2, C41_to_big_uint ha, fun v => ?_,
    fun hx hw => ?_⟩
  · rw [C03_to_u64 ha]
    constructor
    · intro h
      split at h
      · rename_i hlt
        cases h
        rw [BitVec.toNat_ofNat, Nat.mod_eq_of_lt hlt]
      · cases h
    · intro h
      rw [if_pos (by rw [← h]; exact v.isLt), ← h, BitVec.ofNat_toNat, BitVec.setWidth_eq]
  · obtain ⟨dec, h5, h6⟩ := C32_to_dec_str_partial m ha hx (.inr hw)
    exact ⟨dec, h5, h6.1⟩

/-- **C71** The signed number is the unsigned one, minus `2^w` if the sign bit is set; `is_negative` shows its sign, and
for values up to 64 bits `to_i64` shows it, too. -/
theorem C71_signed (m : Mode) {w : Nat} (h0 : 0 < w) {a : BitVecValue} {x : BitVec w} (ha : Denotes a x) :
    ∃ z, BitVecValue.toBigInt m a = ok z ∧
      BitVecValue.isNegative m a = ok (decide (z < 0)) ∧
      z = (BitVecValue.toBigUint a : Int) - (if z < 0 then 2 ^ w else 0) ∧
      (w ≤ 64 → ∃ v, BitVecValue.toI64 m a = ok (some v) ∧ v.toInt = z) := by
  refine ⟨x.toInt, C42_to_big_int m ha, ?_, ?_, fun hw => ?_⟩
  · rw [(C25_is_negative m h0 ha).1]
    have := (C25_is_negative m h0 ha).2
    cases h : x.msb
    · rw [h] at this; simp at this; simp; omega
    · simp [this.1 h]
  · have h1 := (C25_is_negative m h0 ha).2
    rw [C41_to_big_uint ha, BitVec.toInt_eq_msb_cond]
    rw [BitVec.toInt_eq_msb_cond] at h1
    have h2 := x.isLt
    cases h : x.msb
    · simp
      rw [if_neg (by omega)]
      simp
    · have h3 : ((x.toNat : Int) - ((2 ^ w : Nat) : Int) < 0) := by omega
      simp only [if_true]
      rw [if_pos h3]
      push_cast; rfl
  · have hr : -(2 ^ 63 : Int) ≤ x.toInt ∧ x.toInt < 2 ^ 63 := by
      have h1 := BitVec.two_mul_toInt_lt (x := x)
      have h2 := BitVec.le_two_mul_toInt (x := x)
      have h3 : (2:Int) ^ w ≤ 2 ^ 64 := by exact_mod_cast Nat.pow_le_pow_right (by decide) hw
      omega
    refine ⟨BitVec.ofInt 64 x.toInt, ?_, ?_⟩
    · rw [C04_to_i64_partial m ha (.inl hw), if_pos hr]
    · rw [BitVec.toInt_ofInt, Int.bmod_eq_of_le]
      · have := hr.1; simpa using this
      · have := hr.2; simp; omega

/-- **C71** All ways to build a value from the same number `n < 2^w` give the same value: from a big integer, from a
little-endian byte string, from a hexadecimal numeral (widths up to 128), and, if `n < 2^64`, from a machine integer. -/
theorem C71_constructors (m : Mode) {w : Nat} (h0 : 0 < w) (hw : w < 2 ^ 32) {n : Nat} (hn : n < 2 ^ w) :
    ∃ r, BitVecValue.fromBigUint m n w = ok r ∧ BitVecValue.fromBigInt m n w = ok r ∧
      (∀ bs, bs.length ≤ 8 * ((w + 63) / 64) → bytesVal bs = n → BitVecValue.fromBytesLe m bs w = ok r) ∧
      (∀ s radix, 2 ≤ radix → radix ≤ 36 → w ≤ 128 → signedVal radix s = some (n : Int) →
        BitVecValue.fromStrRadix m s radix w = ok (.ok r)) ∧
      (∀ v : Word, v.toNat = n → BitVecValue.fromU64 m v w = ok r) := by
  obtain ⟨r, h1, d1⟩ := C41_from_big_uint m hw n
  have en : BitVec.ofInt w (n : Int) = BitVec.ofNat w n := BitVec.ofInt_natCast ..
  refine ⟨r, h1, ?_, fun bs hb hv => ?_, fun s radix h2 h36 h128 hs => ?_, fun v hv => ?_⟩
  · obtain ⟨s, h2, d2⟩ := C42_from_big_int m h0 hw (n : Int)
    rw [h2, d2.repr_unique (en ▸ d1)]
  · obtain ⟨s, h2, d2⟩ := C40_from_bytes_le m hw bs hb
    rw [h2, d2.repr_unique (hv ▸ d1)]
  · obtain ⟨t, h3, d3⟩ := (C37_from_str_radix_small_partial m h2 h36 h0 h128).1 _ hs (by simpa using hn)
    rw [h3, d3.repr_unique (en ▸ d1)]
  · obtain ⟨s, h2, d2⟩ := C01_from_u64 m h0 hw v (by rw [hv]; exact hn)
    rw [h2, d2.repr_unique (hv ▸ d1)]

/-- **C71** The two ways to build a value from a signed machine integer agree. -/
theorem C71_signed_constructors (m : Mode) {w : Nat} (h0 : 0 < w) (hw : w < 2 ^ 32) (v : Word)
    (hv : -(2 ^ (w - 1) : Int) ≤ v.toInt ∧ v.toInt < 2 ^ (w - 1)) :
    ∃ r, BitVecValue.fromI64 m v w = ok r ∧ BitVecValue.fromBigInt m v.toInt w = ok r := by
  obtain ⟨r, z, h1, d1, hz⟩ := C02_from_i64 m h0 hw v hv
  obtain ⟨s, h2, d2⟩ := C42_from_big_int m h0 hw v.toInt
  refine ⟨r, h1, ?_⟩
  have e : BitVec.ofInt w v.toInt = z := by rw [← hz, BitVec.ofInt_toInt]
  rw [h2, d2.repr_unique (e ▸ d1)]

example : BitVecValue.toHexStr .debug (encode 0x1ff#9) = ok [ch '1', ch 'f', ch 'f'] ∧
    BitVecValue.toBytesLe (encode 0x1ff#9) = [0xff#8, 1#8] ∧ BitVecValue.toBigUint (encode 0x1ff#9) = 511 ∧
    BitVecValue.toBigInt .debug (encode 0x1ff#9) = ok (-1) ∧ Denotes (encode 0x1ff#9) 0x1ff#9 :=
  ⟨by decide +kernel, by decide +kernel, by decide +kernel, by decide +kernel, encode_denotes _ (by decide)⟩

example : BitVecValue.fromBytesLe .debug [0xff#8, 1#8] 9 = ok (encode 0x1ff#9) ∧
    BitVecValue.fromStrRadix .debug [ch '5', ch '1', ch '1'] 10 9 = ok (.ok (encode 0x1ff#9)) ∧
    BitVecValue.fromI64 .debug (-1#64) 9 = ok (encode 0x1ff#9) :=
  ⟨by decide +kernel, by decide +kernel, by decide +kernel⟩

end Baa
