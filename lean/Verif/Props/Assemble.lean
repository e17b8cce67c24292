import Verif.Props.Parts
import Verif.Props.ChunkOps

/-!
# C139: constructors and concatenation, slices, extensions

Values can be read in parts: reading one text or byte string after the other and concatenating the values is the same as reading everything at
once. A number read at a smaller width is a slice of the number read at a larger one, which is an extension of it if the number fits.
-/

namespace Baa
open Res Strings

/-- Two values of the same width that show the same number are the same. -/
theorem denotes_same {a b : BitVecValue} {w v : Nat} {x : BitVec w} {y : BitVec v} (ha : Denotes a x) (hb : Denotes b y) (hw : w = v)
    (h : x.toNat = y.toNat) : a = b := by
  subst hw
  exact ha.repr_unique (BitVec.eq_of_toNat_eq h ▸ hb)

theorem digitsVal_join {radix : Nat} {s t : List Byte} {n k : Nat} (hs : digitsVal radix s = some n) (ht : digitsVal radix t = some k) :
    digitsVal radix (s ++ t) = some (n * radix ^ t.length + k) := by
  unfold digitsVal at hs ht ⊢
  split at hs
  · cases hs
  · rename_i h
    split at ht
    · cases ht
    · rw [if_neg (fun e => h (List.append_eq_nil_iff.mp e).1), digitsFrom_append, hs, Option.bind_some, digitsFrom_acc, ht, Option.map_some]

theorem bit_digits (m : Mode) {s : List Byte} {n : Nat} (h : digitsVal 2 s = some n) (hl : s.length < 2 ^ 32) :
    ∃ r, BitVecValue.fromBitStr m s = ok (.ok r) ∧ Denotes r (BitVec.ofNat s.length n) := by
  have e := numeralWidth_of_digitsVal (bits := 1) h
  rw [Nat.one_mul] at e
  obtain ⟨r, h1, h2⟩ := (C35_from_bit_str m (by rw [e]; exact hl)).2.1 _ (signedVal_of_digitsVal h).1
  exact ⟨r, h1, denotes_cast h2 e _ (by rw [e, BitVec.ofInt_natCast])⟩

theorem hex_digits (m : Mode) {s : List Byte} {n : Nat} (h : digitsVal 16 s = some n) (hl : 4 * s.length < 2 ^ 32) :
    ∃ r, BitVecValue.fromHexStr m s = ok (.ok r) ∧ Denotes r (BitVec.ofNat (4 * s.length) n) := by
  have e := numeralWidth_of_digitsVal (bits := 4) h
  obtain ⟨r, h1, h2⟩ := (C36_from_hex_str m (by rw [e]; exact hl)).2.1 _ (signedVal_of_digitsVal h).1
  exact ⟨r, h1, denotes_cast h2 e _ (by rw [e, BitVec.ofInt_natCast])⟩

/-! ## Texts -/

/-- **C139** A binary text can be read in two parts. -/
theorem C139_bits_concat (m : Mode) {s t : List Byte} {n k : Nat} (hs : digitsVal 2 s = some n) (ht : digitsVal 2 t = some k)
    (hl : s.length + t.length < 2 ^ 32) :
    ∃ a b r, BitVecValue.fromBitStr m s = ok (.ok a) ∧ BitVecValue.fromBitStr m t = ok (.ok b) ∧
      BitVecValue.fromBitStr m (s ++ t) = ok (.ok r) ∧ BitVecValue.concat m a b = ok r := by
  have ps := List.length_pos_iff.mpr (digitsVal_lt hs).1
  have pt := List.length_pos_iff.mpr (digitsVal_lt ht).1
  obtain ⟨a, h1, d1⟩ := bit_digits m hs (by omega)
  obtain ⟨b, h2, d2⟩ := bit_digits m ht (by omega)
  obtain ⟨r, h3, d3⟩ := bit_digits m (digitsVal_join hs ht) (by rw [List.length_append]; exact hl)
  obtain ⟨c, h4, d4⟩ := C21_concat_partial m d1 d2 hl (.inl ⟨ps, pt⟩)
  refine ⟨a, b, r, h1, h2, h3, ?_⟩
  rw [h4, denotes_same d4 d3 (by rw [List.length_append]) ?_]
  have b1 := (digitsVal_lt hs).2
  have b2 := (digitsVal_lt ht).2
  have b3 := (digitsVal_lt (digitsVal_join hs ht)).2
  rw [toNat_append_eq, BitVec.toNat_ofNat, BitVec.toNat_ofNat, BitVec.toNat_ofNat, Nat.mod_eq_of_lt b1, Nat.mod_eq_of_lt b2, Nat.mod_eq_of_lt b3,
    Nat.mul_comm]

/-- **C139** A hexadecimal text can be read in two parts. -/
theorem C139_hex_concat (m : Mode) {s t : List Byte} {n k : Nat} (hs : digitsVal 16 s = some n) (ht : digitsVal 16 t = some k)
    (hl : 4 * (s.length + t.length) < 2 ^ 32) :
    ∃ a b r, BitVecValue.fromHexStr m s = ok (.ok a) ∧ BitVecValue.fromHexStr m t = ok (.ok b) ∧
      BitVecValue.fromHexStr m (s ++ t) = ok (.ok r) ∧ BitVecValue.concat m a b = ok r := by
  have ps := List.length_pos_iff.mpr (digitsVal_lt hs).1
  have pt := List.length_pos_iff.mpr (digitsVal_lt ht).1
  obtain ⟨a, h1, d1⟩ := hex_digits m hs (by omega)
  obtain ⟨b, h2, d2⟩ := hex_digits m ht (by omega)
  obtain ⟨r, h3, d3⟩ := hex_digits m (digitsVal_join hs ht) (by rw [List.length_append]; exact hl)
  obtain ⟨c, h4, d4⟩ := C21_concat_partial m d1 d2 (by omega) (.inl ⟨by omega, by omega⟩)
  refine ⟨a, b, r, h1, h2, h3, ?_⟩
  rw [h4, denotes_same d4 d3 (by rw [List.length_append]; omega) ?_]
  have h16 : ∀ l : Nat, (16 : Nat) ^ l = 2 ^ (4 * l) := fun l => by rw [Nat.pow_mul]
  have b1 := (digitsVal_lt hs).2
  have b2 := (digitsVal_lt ht).2
  have b3 := (digitsVal_lt (digitsVal_join hs ht)).2
  rw [h16] at b1 b2
  rw [h16 (s ++ t).length] at b3
  rw [toNat_append_eq, BitVec.toNat_ofNat, BitVec.toNat_ofNat, BitVec.toNat_ofNat, Nat.mod_eq_of_lt b1, Nat.mod_eq_of_lt b2, Nat.mod_eq_of_lt b3,
    Nat.mul_comm, h16]

theorem zeros_join {radix : Nat} (hr : digitOf radix (ch '0') = some 0) {s : List Byte} {n : Nat} (hs : digitsVal radix s = some n) (z : Nat) :
    digitsVal radix (List.replicate z (ch '0') ++ s) = some n := by
  cases z with
  | zero => exact hs
  | succ z =>
    have h0 : ∀ z, digitsFrom radix 0 (List.replicate z (ch '0')) = some 0 := by
      intro z
      induction z with
      | zero => rfl
      | succ z ih => rw [List.replicate_succ, digitsFrom, hr]; simpa using ih
    rw [digitsVal_join (n := 0) (by unfold digitsVal; rw [if_neg (by simp), h0]) hs, Nat.zero_mul, Nat.zero_add]

/-- **C139** Zeros in front of a text extend the value. -/
theorem C139_zeros (m : Mode) {s : List Byte} {n : Nat} (z : Nat) :
    (digitsVal 2 s = some n → s.length + z < 2 ^ 32 →
      ∃ a r, BitVecValue.fromBitStr m s = ok (.ok a) ∧ BitVecValue.fromBitStr m (List.replicate z (ch '0') ++ s) = ok (.ok r) ∧
        BitVecValue.zeroExtend m a z = ok r) ∧
    (digitsVal 16 s = some n → 4 * (s.length + z) < 2 ^ 32 →
      ∃ a r, BitVecValue.fromHexStr m s = ok (.ok a) ∧ BitVecValue.fromHexStr m (List.replicate z (ch '0') ++ s) = ok (.ok r) ∧
        BitVecValue.zeroExtend m a (4 * z) = ok r) := by
  refine ⟨fun hs hl => ?_, fun hs hl => ?_⟩
  · have ps := List.length_pos_iff.mpr (digitsVal_lt hs).1
    obtain ⟨a, h1, d1⟩ := bit_digits m hs (by omega)
    obtain ⟨r, h2, d2⟩ := bit_digits m (zeros_join (by decide) hs z) (by rw [List.length_append, List.length_replicate]; omega)
    obtain ⟨c, h3, d3, _⟩ := C22_zero_extend_partial m d1 z (by omega) (.inl ps)
    refine ⟨a, r, h1, h2, ?_⟩
    rw [h3, denotes_same d3 d2 (by rw [List.length_append, List.length_replicate]; omega) ?_]
    have b1 := (digitsVal_lt hs).2
    have b2 := (digitsVal_lt (zeros_join (by decide) hs z)).2
    rw [BitVec.toNat_setWidth, BitVec.toNat_ofNat, BitVec.toNat_ofNat, Nat.mod_eq_of_lt b1, Nat.mod_eq_of_lt b2, Nat.mod_eq_of_lt]
    exact Nat.lt_of_lt_of_le b1 (Nat.pow_le_pow_right (by decide) (by omega))
  · have ps := List.length_pos_iff.mpr (digitsVal_lt hs).1
    obtain ⟨a, h1, d1⟩ := hex_digits m hs (by omega)
    obtain ⟨r, h2, d2⟩ := hex_digits m (zeros_join (by decide) hs z) (by rw [List.length_append, List.length_replicate]; omega)
    obtain ⟨c, h3, d3, _⟩ := C22_zero_extend_partial m d1 (4 * z) (by omega) (.inl (by omega))
    refine ⟨a, r, h1, h2, ?_⟩
    rw [h3, denotes_same d3 d2 (by rw [List.length_append, List.length_replicate]; omega) ?_]
    have h16 : ∀ l : Nat, (16 : Nat) ^ l = 2 ^ (4 * l) := fun l => by rw [Nat.pow_mul]
    have b1 := (digitsVal_lt hs).2
    have b2 := (digitsVal_lt (zeros_join (by decide) hs z)).2
    rw [h16] at b1 b2
    rw [BitVec.toNat_setWidth, BitVec.toNat_ofNat, BitVec.toNat_ofNat, Nat.mod_eq_of_lt b1, Nat.mod_eq_of_lt b2, Nat.mod_eq_of_lt]
    exact Nat.lt_of_lt_of_le b1 (Nat.pow_le_pow_right (by decide) (by omega))

/-! ## Bytes -/

/-- **C139** A byte string can be read in two parts, the low one first. -/
theorem C139_bytes_concat (m : Mode) {bs cs : List Byte} (hb : bs ≠ []) (hc : cs ≠ []) (hl : 8 * (bs.length + cs.length) < 2 ^ 32) :
    ∃ a b r, BitVecValue.fromBytesLe m bs (8 * bs.length) = ok a ∧ BitVecValue.fromBytesLe m cs (8 * cs.length) = ok b ∧
      BitVecValue.fromBytesLe m (bs ++ cs) (8 * (bs.length + cs.length)) = ok r ∧ BitVecValue.concat m b a = ok r := by
  have pb := List.length_pos_iff.mpr hb
  have pc := List.length_pos_iff.mpr hc
  obtain ⟨a, h1, d1⟩ := C40_from_bytes_le m (w := 8 * bs.length) (by omega) bs (by omega)
  obtain ⟨b, h2, d2⟩ := C40_from_bytes_le m (w := 8 * cs.length) (by omega) cs (by omega)
  obtain ⟨r, h3, d3⟩ := C40_from_bytes_le m (w := 8 * (bs.length + cs.length)) hl (bs ++ cs) (by rw [List.length_append]; omega)
  obtain ⟨c, h4, d4⟩ := C21_concat_partial m d2 d1 (by omega) (.inl ⟨by omega, by omega⟩)
  refine ⟨a, b, r, h1, h2, h3, ?_⟩
  rw [h4, denotes_same d4 d3 (by omega) ?_]
  have b1 := bytesVal_lt bs
  have b2 := bytesVal_lt cs
  have b3 := bytesVal_lt (bs ++ cs)
  rw [List.length_append] at b3
  rw [toNat_append_eq, BitVec.toNat_ofNat, BitVec.toNat_ofNat, BitVec.toNat_ofNat, Nat.mod_eq_of_lt b1, Nat.mod_eq_of_lt b2, Nat.mod_eq_of_lt b3,
    bytesVal_append, Nat.add_comm]

/-! ## Numbers -/

/-- What a slice of the low bits shows. -/
theorem low_slice {w v : Nat} (n : Nat) (h : v ≤ w) : ((BitVec.ofNat w n).extractLsb' 0 v).toNat = n % 2 ^ v := by
  rw [BitVec.extractLsb'_toNat, Nat.shiftRight_zero, BitVec.toNat_ofNat, Nat.mod_mod_of_dvd _ (Nat.pow_dvd_pow 2 h)]

/-- **C139** A number read at a smaller width is the low part of the number read at a larger one: natural numbers, integers, bytes. -/
theorem C139_narrow (m : Mode) {w v : Nat} (h0 : 0 < v) (h : v ≤ w) (hw : w < 2 ^ 32) :
    (∀ n, ∃ a r, BitVecValue.fromBigUint m n w = ok a ∧ BitVecValue.fromBigUint m n v = ok r ∧ BitVecValue.slice m a (v - 1) 0 = ok r) ∧
    (∀ z, ∃ a r, BitVecValue.fromBigInt m z w = ok a ∧ BitVecValue.fromBigInt m z v = ok r ∧ BitVecValue.slice m a (v - 1) 0 = ok r) ∧
    (∀ bs, bs.length ≤ 8 * ((v + 63) / 64) → ∃ a r, BitVecValue.fromBytesLe m bs w = ok a ∧ BitVecValue.fromBytesLe m bs v = ok r ∧
      BitVecValue.slice m a (v - 1) 0 = ok r) := by
  refine ⟨fun n => ?_, fun z => ?_, fun bs hb => ?_⟩
  · obtain ⟨a, h1, d1⟩ := C41_from_big_uint m hw n
    obtain ⟨r, h2, d2⟩ := C41_from_big_uint m (w := v) (by omega) n
    obtain ⟨c, h3, d3⟩ := C19_slice m d1 (msb := v - 1) (lsb := 0) (by omega) (by omega)
    refine ⟨a, r, h1, h2, ?_⟩
    rw [h3, denotes_same d3 d2 (by omega) ?_]
    rw [low_slice n (by omega), BitVec.toNat_ofNat, show v - 1 - 0 + 1 = v by omega]
  · obtain ⟨a, h1, d1⟩ := C42_from_big_int m (by omega) hw z
    obtain ⟨r, h2, d2⟩ := C42_from_big_int m (w := v) h0 (by omega) z
    obtain ⟨c, h3, d3⟩ := C19_slice m d1 (msb := v - 1) (lsb := 0) (by omega) (by omega)
    refine ⟨a, r, h1, h2, ?_⟩
    rw [h3, denotes_same d3 d2 (by omega) ?_]
    rw [BitVec.extractLsb'_toNat, Nat.shiftRight_zero, show v - 1 - 0 + 1 = v by omega]
    have hd : ((2 ^ v : Nat) : Int) ∣ ((2 ^ w : Nat) : Int) := Int.natCast_dvd_natCast.mpr (Nat.pow_dvd_pow 2 h)
    have p1 : ((2 ^ w : Nat) : Int) ≠ 0 := Int.natCast_ne_zero.mpr (Nat.ne_of_gt (Nat.two_pow_pos w))
    have p2 : ((2 ^ v : Nat) : Int) ≠ 0 := Int.natCast_ne_zero.mpr (Nat.ne_of_gt (Nat.two_pow_pos v))
    apply Int.ofNat_inj.mp
    rw [Int.natCast_emod, BitVec.toNat_ofInt, BitVec.toNat_ofInt, Int.toNat_of_nonneg (Int.emod_nonneg _ p1),
      Int.toNat_of_nonneg (Int.emod_nonneg _ p2), Int.emod_emod_of_dvd z hd]
  · obtain ⟨a, h1, d1⟩ := C40_from_bytes_le m hw bs (by omega)
    obtain ⟨r, h2, d2⟩ := C40_from_bytes_le m (w := v) (by omega) bs hb
    obtain ⟨c, h3, d3⟩ := C19_slice m d1 (msb := v - 1) (lsb := 0) (by omega) (by omega)
    refine ⟨a, r, h1, h2, ?_⟩
    rw [h3, denotes_same d3 d2 (by omega) ?_]
    rw [low_slice _ (by omega), BitVec.toNat_ofNat, show v - 1 - 0 + 1 = v by omega]

/-- **C139** A natural number that fits, read at a larger width, is the zero extension of the number read at a smaller one. -/
theorem C139_widen (m : Mode) {w k : Nat} (h0 : 0 < w) (hw : w + k < 2 ^ 32) :
    (∀ n, n < 2 ^ w → ∃ a r, BitVecValue.fromBigUint m n w = ok a ∧ BitVecValue.fromBigUint m n (w + k) = ok r ∧
      BitVecValue.zeroExtend m a k = ok r) ∧
    (∀ v : Word, v.toNat < 2 ^ w → ∃ a r, BitVecValue.fromU64 m v w = ok a ∧ BitVecValue.fromU64 m v (w + k) = ok r ∧
      BitVecValue.zeroExtend m a k = ok r) ∧
    (∀ bs, bs.length ≤ 8 * ((w + 63) / 64) → bytesVal bs < 2 ^ w → ∃ a r, BitVecValue.fromBytesLe m bs w = ok a ∧
      BitVecValue.fromBytesLe m bs (w + k) = ok r ∧ BitVecValue.zeroExtend m a k = ok r) := by
  have key : ∀ {n : Nat} {a r : BitVecValue}, n < 2 ^ w → Denotes a (BitVec.ofNat w n) → Denotes r (BitVec.ofNat (w + k) n) →
      BitVecValue.zeroExtend m a k = ok r := fun hn d1 d2 => by
    obtain ⟨c, h3, d3, _⟩ := C22_zero_extend_partial m d1 k hw (.inl h0)
    rw [h3, denotes_same d3 d2 rfl ?_]
    rw [BitVec.toNat_setWidth, BitVec.toNat_ofNat, BitVec.toNat_ofNat, Nat.mod_eq_of_lt hn]
  refine ⟨fun n hn => ?_, fun v hv => ?_, fun bs hb hv => ?_⟩
  · obtain ⟨a, h1, d1⟩ := C41_from_big_uint m (w := w) (by omega) n
    obtain ⟨r, h2, d2⟩ := C41_from_big_uint m hw n
    exact ⟨a, r, h1, h2, key hn d1 d2⟩
  · obtain ⟨a, h1, d1⟩ := C01_from_u64 m h0 (by omega) v hv
    obtain ⟨r, h2, d2⟩ := C01_from_u64 m (w := w + k) (by omega) hw v
      (Nat.lt_of_lt_of_le hv (Nat.pow_le_pow_right (by decide) (by omega)))
    exact ⟨a, r, h1, h2, key hv d1 d2⟩
  · obtain ⟨a, h1, d1⟩ := C40_from_bytes_le m (w := w) (by omega) bs hb
    obtain ⟨r, h2, d2⟩ := C40_from_bytes_le m hw bs (by omega)
    exact ⟨a, r, h1, h2, key hv d1 d2⟩

/-- **C139** An integer that fits, read at a larger width, is the sign extension of the integer read at a smaller one. -/
theorem C139_widen_signed (m : Mode) {w k : Nat} (h0 : 0 < w) (hw : w + k < 2 ^ 32) :
    (∀ z : Int, -(2 ^ (w - 1) : Int) ≤ z → z < 2 ^ (w - 1) → ∃ a r, BitVecValue.fromBigInt m z w = ok a ∧
      BitVecValue.fromBigInt m z (w + k) = ok r ∧ BitVecValue.signExtend m a k = ok r) ∧
    (∀ v : Word, -(2 ^ (w - 1) : Int) ≤ v.toInt → v.toInt < 2 ^ (w - 1) → ∃ a r, BitVecValue.fromI64 m v w = ok a ∧
      BitVecValue.fromI64 m v (w + k) = ok r ∧ BitVecValue.signExtend m a k = ok r) := by
  have key : ∀ {a r : BitVecValue} {x : BitVec w} {y : BitVec (w + k)}, Denotes a x → Denotes r y → x.toInt = y.toInt →
      BitVecValue.signExtend m a k = ok r := fun {a r x y} d1 d2 e => by
    obtain ⟨c, h3, d3, e3⟩ := C23_sign_extend m h0 d1 k hw
    rw [e, BitVec.toInt_inj] at e3
    rw [e3] at d3
    rw [h3, d3.repr_unique d2]
  have pw : (2 : Int) ^ (w - 1) ≤ 2 ^ (w + k - 1) := by exact_mod_cast Nat.pow_le_pow_right (by decide) (by omega)
  refine ⟨fun z h1 h2 => ?_, fun v h1 h2 => ?_⟩
  · obtain ⟨a, e1, d1⟩ := C42_from_big_int m h0 (by omega) z
    obtain ⟨r, e2, d2⟩ := C42_from_big_int m (w := w + k) (by omega) hw z
    refine ⟨a, r, e1, e2, key d1 d2 ?_⟩
    rw [BitVec.toInt_ofInt_eq_self (by omega) h1 h2, BitVec.toInt_ofInt_eq_self (by omega) (by omega) (by omega)]
  · obtain ⟨a, x, e1, d1, f1⟩ := C02_from_i64 m h0 (by omega) v ⟨h1, h2⟩
    obtain ⟨r, y, e2, d2, f2⟩ := C02_from_i64 m (w := w + k) (by omega) hw v ⟨by omega, by omega⟩
    exact ⟨a, r, e1, e2, key d1 d2 (by rw [f1, f2])⟩

example : digitsVal 16 (bytesOf "1fe") = some 0x1fe ∧ digitsVal 16 (bytesOf "07") = some 7 ∧
    BitVecValue.fromHexStr .debug (bytesOf "1fe07") = ok (.ok (encode 0x1fe07#20)) ∧
    BitVecValue.concat .debug (encode 0x1fe#12) (encode 7#8) = ok (encode 0x1fe07#20) ∧
    BitVecValue.fromBytesLe .debug [7#8, 0xfe#8] 16 = ok (encode 0xfe07#16) ∧
    BitVecValue.fromBytesLe .debug [7#8, 0xfe#8] 9 = ok (encode 7#9) ∧
    BitVecValue.slice .debug (encode 0xfe07#16) 8 0 = ok (encode 7#9) ∧
    BitVecValue.fromBigInt .debug (-2) 70 = ok (encode (-2#70)) ∧
    BitVecValue.signExtend .debug (encode (-2#3)) 67 = ok (encode (-2#70)) := by decide +kernel

end Baa
