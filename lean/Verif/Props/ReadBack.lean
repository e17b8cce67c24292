import Verif.Props.ParseTotal
import Verif.Props.RoundTrip
import Verif.Props.ZeroWidth

/-!
# C131, C132: reading a printed value at its own width

C38 lets the parser choose the width. Here the caller gives the width of the value to `from_str_radix`
(src/bv/owned.rs, src/bv/io/strings.rs), as one does when reading a field whose width is known.
-/

namespace Baa
open Res Strings

theorem digitsVal_numeral_bin (N : Nat) {k : Nat} (hk : 0 < k) : digitsVal 2 (numeral 2 N k) = some (N % 2 ^ k) := by
  rw [← numeral_bin, ← msbDigits_mod 2 binChar _ _ (Nat.le_refl k)]
  exact digitsVal_msbDigits (by decide) digitOf_binChar hk (Nat.mod_lt _ (Nat.two_pow_pos _))

theorem digitsVal_numeral_hex (N : Nat) {k : Nat} (hk : 0 < k) : digitsVal 16 (numeral 16 N k) = some (N % 2 ^ (4 * k)) := by
  rw [← numeral_hex, ← msbDigits_mod 16 hexChar _ _ (Nat.le_refl k), sixteen_pow]
  exact digitsVal_msbDigits (by decide) digitOf_hexChar hk (by rw [sixteen_pow]; exact Nat.mod_lt _ (Nat.two_pow_pos _))

theorem numeral_length (b N k : Nat) : (numeral b N k).length = k := by simp [numeral]

theorem numeralDigits_digits {radix : Nat} {ds : List Byte} {n : Nat} (h : digitsVal radix ds = some n) : numeralDigits ds = ds := by
  obtain ⟨_, hm, hp⟩ := signedVal_of_digitsVal h
  unfold numeralDigits stripMinus
  rw [if_neg hm]
  unfold stripPlus
  rw [if_neg hp]

theorem numeralDigits_minus {radix : Nat} {ds : List Byte} {n : Nat} (h : digitsVal radix ds = some n) :
    numeralDigits (ch '-' :: ds) = ds := by
  obtain ⟨_, _, hp⟩ := signedVal_of_digitsVal h
  unfold numeralDigits stripMinus
  rw [List.head?_cons, if_pos rfl, List.tail_cons]
  unfold stripPlus
  rw [if_neg hp]

/-- A text of sign and digits: its value and its digits. -/
theorem signedText {radix : Nat} {ds : List Byte} {n : Nat} (neg : Bool) (h : digitsVal radix ds = some n) :
    signedVal radix ((if neg then [ch '-'] else []) ++ ds) = some (if neg then -(n : Int) else (n : Int)) ∧
    numeralDigits ((if neg then [ch '-'] else []) ++ ds) = ds := by
  cases neg with
  | false => exact ⟨(signedVal_of_digitsVal h).1, numeralDigits_digits h⟩
  | true => exact ⟨(numeral_minus (bits := 1) h).1, numeralDigits_minus h⟩

/-- Binary digits, at most as many as the width has bits, are read back. -/
theorem read_bin (m : Mode) {w : Nat} (h0 : 1 ≤ w) (hw : w < 2 ^ 32) {s : List Byte} {z : Int} (hz : signedVal 2 s = some z)
    (hfit : z.natAbs < 2 ^ w) (hlen : 128 < w → (numeralDigits s).length ≤ w) :
    ∃ r, BitVecValue.fromStrRadix m s 2 w = ok (.ok r) ∧ Denotes r (BitVec.ofInt w z) := by
  by_cases h : 128 < w
  · exact (C37_from_str_radix_bin_partial m h hw hz).1 (hlen h)
  · exact (C37_from_str_radix_small_partial m (by decide) (by decide) h0 (by omega)).1 z hz hfit

/-- Hexadecimal digits that fit into the words of the result are read back. -/
theorem read_hex (m : Mode) {w : Nat} (h0 : 1 ≤ w) (hw : w + 63 < 2 ^ 32) {s : List Byte} {z : Int} (hz : signedVal 16 s = some z)
    (hfit : z.natAbs < 2 ^ w) (hlen : 128 < w → 4 * (numeralDigits s).length ≤ 64 * ((w + 63) / 64)) :
    ∃ r, BitVecValue.fromStrRadix m s 16 w = ok (.ok r) ∧ Denotes r (BitVec.ofInt w z) := by
  by_cases h : 128 < w
  · exact C37_from_str_radix_hex_partial m h hw hz (hlen h) hfit
  · exact (C37_from_str_radix_small_partial m (by decide) (by decide) h0 (by omega)).1 z hz hfit

/-! ## C131 -/

/-- **C131**, binary: the printed text is read back at the width of the value, whatever the width. -/
theorem C131_binary (m : Mode) {w : Nat} {a : BitVecValue} {x : BitVec w} (ha : Denotes a x) :
    ∃ s, BitVecValue.toBitStr a = ok s ∧ BitVecValue.fromStrRadix m s 2 w = ok (.ok a) := by
  by_cases h0 : w = 0
  · subst h0
    rw [ha.nil]
    exact ⟨[], by decide +kernel, by cases m <;> decide +kernel⟩
  · obtain ⟨s, h1, h2, h3⟩ := C30_to_bit_str_value (by omega) ha
    obtain ⟨r, h4, h5⟩ := read_bin m (by omega) ha.width_lt (signedVal_of_digitsVal h3).1
      (by rw [Int.natAbs_natCast]; exact x.isLt) (fun _ => by rw [numeralDigits_digits h3, h2]; exact Nat.le_refl _)
    rw [BitVec.ofInt_natCast, BitVec.ofNat_toNat, BitVec.setWidth_eq] at h5
    exact ⟨s, h1, by rw [h4, h5.repr_unique ha]⟩

/-- **C131**, hexadecimal: the printed text is read back at the width of the value, also if that is no multiple of 4. -/
theorem C131_hexadecimal (m m' : Mode) {w : Nat} (h0 : 0 < w) (hw : w + 63 < 2 ^ 32) {a : BitVecValue} {x : BitVec w}
    (ha : Denotes a x) :
    ∃ s, BitVecValue.toHexStr m a = ok s ∧ BitVecValue.fromStrRadix m' s 16 w = ok (.ok a) := by
  obtain ⟨s, h1, h2, _, h3⟩ := C31_to_hex_str m h0 ha
  obtain ⟨r, h4, h5⟩ := read_hex m' h0 hw (signedVal_of_digitsVal h3).1
    (by rw [Int.natAbs_natCast]; exact x.isLt) (fun _ => by rw [numeralDigits_digits h3, h2]; omega)
  rw [BitVec.ofInt_natCast, BitVec.ofNat_toNat, BitVec.setWidth_eq] at h5
  exact ⟨s, h1, by rw [h4, h5.repr_unique ha]⟩

/-- **C131**, decimal: the printed text is read back at the width of the value up to 128 bits. Above that, whatever is printed
makes the reader panic, even if the value is small. -/
theorem C131_decimal (m m' : Mode) {w : Nat} {a : BitVecValue} {x : BitVec w} (ha : Denotes a x) :
    (w ≤ 128 → ∃ s, BitVecValue.toDecStr m a = ok s ∧ BitVecValue.fromStrRadix m' s 10 w = ok (.ok a)) ∧
    (128 < w → ∀ s, BitVecValue.toDecStr m a = ok s → BitVecValue.fromStrRadix m' s 10 w = panic .todo) := by
  constructor
  · intro hw
    by_cases h0 : w = 0
    · subst h0
      rw [ha.nil]
      exact ⟨[ch '0'], by cases m <;> decide +kernel, by cases m' <;> decide +kernel⟩
    · exact C38_dec_str_round_trip m m' (by omega) hw ha
  · intro hw s hs
    by_cases hx : x.toNat < 2 ^ 128
    · by_cases hm : m = .release ∨ w * 3 < 2 ^ 32
      · obtain ⟨t, h1, h2⟩ := C32_to_dec_str_partial m ha hx hm
        rw [h1] at hs
        cases hs
        exact C37_dec_wide_panics m' hw (signedVal_of_digitsVal h2.1).1
      · cases m with
        | release => exact absurd (Or.inl rfl) hm
        | debug =>
          rw [C32_huge_width_debug_panics ha (by omega)] at hs
          cases hs
    · obtain ⟨p, hp⟩ := C32_to_dec_str_wide_panics m ha (by omega)
      rw [hp] at hs
      cases hs

example : Denotes (encode 300#129) 300#129 ∧ BitVecValue.toHexStr .debug (encode 0x1fe#9) = ok ("1fe".toList.map ch) ∧
    BitVecValue.fromStrRadix .debug ("1fe".toList.map ch) 16 9 = ok (.ok (encode 0x1fe#9)) ∧
    BitVecValue.toDecStr .debug (encode 300#129) = ok ("300".toList.map ch) ∧
    BitVecValue.fromStrRadix .debug ("300".toList.map ch) 10 129 = panic .todo :=
  ⟨encode_denotes _ (by decide), by decide +kernel, by decide +kernel, by decide +kernel, by decide +kernel⟩

/-! ## C132 -/

/-- **C132, full statement**: the signed texts are read back at the width of the value. -/
def C132_statement : Prop := ∀ (m m' : Mode) {w : Nat} {a : BitVecValue} {x : BitVec w}, 0 < w → w + 63 < 2 ^ 32 → Denotes a x →
  (∃ s, BitVecValue.toBitStrSigned m a = ok s ∧ BitVecValue.fromStrRadix m' s 2 w = ok (.ok a)) ∧
  (∃ s, BitVecValue.toHexStrSigned m a = ok s ∧ BitVecValue.fromStrRadix m' s 16 w = ok (.ok a))

/-- What the signed text of `x` with `k` binary digits' worth of magnitude stands for. -/
theorem signed_reading {w k : Nat} (h2 : 2 ≤ w) (x : BitVec w) (hk : w - 1 ≤ k) :
    (if decide (x.toInt < 0) then -((x.toInt.natAbs % 2 ^ k : Nat) : Int) else ((x.toInt.natAbs % 2 ^ k : Nat) : Int)) =
      if x = BitVec.intMin w ∧ k = w - 1 then 0 else x.toInt := by
  have hlo := BitVec.le_toInt x
  have hhi := BitVec.toInt_lt (x := x)
  have hp : ((2 ^ (w - 1) : Nat) : Int) = (2 : Int) ^ (w - 1) := by norm_cast
  have hmono : 2 ^ (w - 1) ≤ 2 ^ k := Nat.pow_le_pow_right (by decide) hk
  have hmin : x = BitVec.intMin w ↔ x.toInt = -((2 ^ (w - 1) : Nat) : Int) := by
    rw [hp]
    constructor
    · rintro rfl; exact BitVec.toInt_intMin_of_pos (by omega)
    · intro h; apply BitVec.eq_of_toInt_eq; rw [h]; exact (BitVec.toInt_intMin_of_pos (by omega)).symm
  by_cases hc : x = BitVec.intMin w ∧ k = w - 1
  · rw [if_pos hc]
    obtain ⟨h, rfl⟩ := hc
    have : x.toInt.natAbs = 2 ^ (w - 1) := by rw [hmin.mp h, Int.natAbs_neg, Int.natAbs_natCast]
    rw [this, Nat.mod_self]
    split <;> rfl
  · rw [if_neg hc]
    have hlt : x.toInt.natAbs < 2 ^ k := by
      by_cases h : x = BitVec.intMin w
      · have hk' : w - 1 < k := by
          have : k ≠ w - 1 := fun e => hc ⟨h, e⟩
          omega
        have := Nat.pow_lt_pow_right (a := 2) (by decide) hk'
        omega
      · have : x.toInt ≠ -((2 ^ (w - 1) : Nat) : Int) := fun e => h (hmin.mpr e)
        omega
    rw [Nat.mod_eq_of_lt hlt]
    by_cases hn : x.toInt < 0
    · rw [if_pos (by simpa using hn)]; omega
    · rw [if_neg (by simpa using hn)]; omega

theorem denotes_signed_reading {w : Nat} {P : Prop} [Decidable P] {r a : BitVecValue} {x : BitVec w} (ha : Denotes a x)
    (h : Denotes r (BitVec.ofInt w (if P then 0 else x.toInt))) : r = if P then BitVecValue.zero w else a := by
  by_cases hP : P
  · rw [if_pos hP] at h ⊢
    exact h.repr_unique (by simpa using C01_zero ha.width_lt)
  · rw [if_neg hP] at h ⊢
    rw [BitVec.ofInt_toInt] at h
    exact h.repr_unique ha

theorem signed_reading_natAbs {w : Nat} {P : Prop} [Decidable P] (x : BitVec w) (h0 : 0 < w) :
    (if P then 0 else x.toInt).natAbs < 2 ^ w := by
  have hlo := BitVec.le_toInt x
  have hhi := BitVec.toInt_lt (x := x)
  have hp : ((2 ^ (w - 1) : Nat) : Int) = (2 : Int) ^ (w - 1) := by norm_cast
  have := Nat.pow_lt_pow_right (a := 2) (by decide) (show w - 1 < w by omega)
  split
  · exact Nat.two_pow_pos w
  · omega

/-- **C132, exact, binary**: what the reader makes of the signed text. From 129 bits on the text is too long for widths of the form
`64k+1`; for all other widths only the smallest value is lost (it is read as 0), and at 65 bits everything is read back. -/
theorem C132_binary (m m' : Mode) {w : Nat} (h2 : 2 ≤ w) (hw : w + 63 < 2 ^ 32) {a : BitVecValue} {x : BitVec w}
    (ha : Denotes a x) :
    ∃ s, BitVecValue.toBitStrSigned m a = ok s ∧ BitVecValue.fromStrRadix m' s 2 w =
      if 128 < w ∧ w % 64 = 1 then ok (.error .exceedsWidth)
      else if x = BitVec.intMin w ∧ w % 64 ≠ 1 then ok (.ok (BitVecValue.zero w)) else ok (.ok a) := by
  have hk : 0 < (if w % 64 = 1 then w - 1 + 64 else w - 1) := by split <;> omega
  have hk' : w - 1 ≤ (if w % 64 = 1 then w - 1 + 64 else w - 1) := by split <;> omega
  obtain ⟨h3, h4⟩ := signedText (decide (x.toInt < 0)) (digitsVal_numeral_bin x.toInt.natAbs hk)
  rw [signed_reading h2 x hk'] at h3
  have he : (x = BitVec.intMin w ∧ (if w % 64 = 1 then w - 1 + 64 else w - 1) = w - 1) ↔ (x = BitVec.intMin w ∧ w % 64 ≠ 1) := by
    refine and_congr_right fun _ => ?_
    split <;> omega
  simp only [he] at h3
  simp only [decide_eq_true_eq] at h3 h4
  refine ⟨_, C33_exact m h2 ha, ?_⟩
  by_cases h : 128 < w ∧ w % 64 = 1
  · rw [if_pos h]
    refine (C37_from_str_radix_bin_partial m' h.1 ha.width_lt h3).2 ?_ ?_ <;> rw [h4, numeral_length, if_pos h.2] <;> omega
  · rw [if_neg h]
    obtain ⟨r, h5, h6⟩ := read_bin m' (by omega) ha.width_lt h3 (signed_reading_natAbs x (by omega))
      (fun h' => by rw [h4, numeral_length, if_neg (fun e => h ⟨h', e⟩)]; omega)
    rw [h5, denotes_signed_reading ha h6]
    split <;> rfl

/-- **C132, exact, hexadecimal**: only the smallest value is lost, if `w - 1` is a multiple of 4 (it is read as 0). -/
theorem C132_hexadecimal (m m' : Mode) {w : Nat} (h2 : 2 ≤ w) (hw : w + 63 < 2 ^ 32) {a : BitVecValue} {x : BitVec w}
    (ha : Denotes a x) :
    ∃ s, BitVecValue.toHexStrSigned m a = ok s ∧ BitVecValue.fromStrRadix m' s 16 w =
      ok (.ok (if x = BitVec.intMin w ∧ (w - 1) % 4 = 0 then BitVecValue.zero w else a)) := by
  have hk : 0 < (w - 1 + 3) / 4 := by omega
  obtain ⟨h3, h4⟩ := signedText (decide (x.toInt < 0)) (digitsVal_numeral_hex x.toInt.natAbs hk)
  rw [signed_reading h2 x (by omega)] at h3
  have he : (x = BitVec.intMin w ∧ 4 * ((w - 1 + 3) / 4) = w - 1) ↔ (x = BitVec.intMin w ∧ (w - 1) % 4 = 0) := by
    refine and_congr_right fun _ => ?_
    omega
  simp only [he] at h3
  simp only [decide_eq_true_eq] at h3 h4
  refine ⟨_, C34_exact m h2 ha, ?_⟩
  obtain ⟨r, h5, h6⟩ := read_hex m' (by omega) hw h3 (signed_reading_natAbs x (by omega))
    (fun h' => by rw [h4, numeral_length]; omega)
  rw [h5, denotes_signed_reading ha h6]

/-- **C132, exact, width 1**: nothing is printed for 0 and for −1, and this is read as 0. -/
theorem C132_width_one (m m' : Mode) {a : BitVecValue} {x : BitVec 1} (ha : Denotes a x) :
    (∃ s, BitVecValue.toBitStrSigned m a = ok s ∧ BitVecValue.fromStrRadix m' s 2 1 = ok (.ok (BitVecValue.zero 1))) ∧
    (∃ s, BitVecValue.toHexStrSigned m a = ok s ∧ BitVecValue.fromStrRadix m' s 16 1 = ok (.ok (BitVecValue.zero 1))) := by
  obtain ⟨h1, h2⟩ := C33_width_one m ha
  exact ⟨⟨_, h1, C37_empty_is_zero m' 2 1⟩, ⟨_, h2, C37_empty_is_zero m' 16 1⟩⟩

/-- **C132, proved part**: all values but the smallest are read back, from binary text if the width is not of the form `64k+1`
above 128.
Missing: width 1 (`C132_width_one`), the smallest value and the other widths (`C132_binary`, `C132_hexadecimal`). -/
theorem C132_read_back_partial (m m' : Mode) {w : Nat} (h2 : 2 ≤ w) (hw : w + 63 < 2 ^ 32) {a : BitVecValue} {x : BitVec w}
    (ha : Denotes a x) (hx : x ≠ BitVec.intMin w) :
    (¬ (128 < w ∧ w % 64 = 1) →
      ∃ s, BitVecValue.toBitStrSigned m a = ok s ∧ BitVecValue.fromStrRadix m' s 2 w = ok (.ok a)) ∧
    (∃ s, BitVecValue.toHexStrSigned m a = ok s ∧ BitVecValue.fromStrRadix m' s 16 w = ok (.ok a)) := by
  constructor
  · intro h
    obtain ⟨s, h3, h4⟩ := C132_binary m m' h2 hw ha
    rw [if_neg h, if_neg (fun e => hx e.1)] at h4
    exact ⟨s, h3, h4⟩
  · obtain ⟨s, h3, h4⟩ := C132_hexadecimal m m' h2 hw ha
    rw [if_neg (fun e => hx e.1)] at h4
    exact ⟨s, h3, h4⟩

/-- **C132 is false of the code**: −128 of 8 bits is read back as 0. -/
theorem C132_refuted : ¬ C132_statement := fun h => by
  obtain ⟨s, h1, h2⟩ := (h .debug .debug (by decide) (by decide) (encode_denotes 128#8 (by decide))).1
  obtain ⟨t, h3, h4⟩ := C132_binary .debug .debug (by decide) (by decide) (encode_denotes 128#8 (by decide))
  rw [h1] at h3
  cases h3
  rw [h2, if_neg (by decide), if_pos (by decide)] at h4
  revert h4
  decide

example : Denotes (encode (-5#129)) (-5#129) ∧ (-5#129) ≠ BitVec.intMin 129 ∧
    (do let s ← BitVecValue.toBitStrSigned .debug (encode (-5#129)); BitVecValue.fromStrRadix .debug s 2 129) =
      ok (.error .exceedsWidth) ∧
    (do let s ← BitVecValue.toHexStrSigned .debug (encode (-5#129)); BitVecValue.fromStrRadix .debug s 16 129) =
      ok (.ok (encode (-5#129))) ∧
    (do let s ← BitVecValue.toBitStrSigned .debug (encode (BitVec.intMin 65)); BitVecValue.fromStrRadix .debug s 2 65) =
      ok (.ok (encode (BitVec.intMin 65))) ∧
    (do let s ← BitVecValue.toHexStrSigned .debug (encode (BitVec.intMin 65)); BitVecValue.fromStrRadix .debug s 16 65) =
      ok (.ok (encode 0#65)) :=
  ⟨encode_denotes _ (by decide), by decide +kernel, by decide +kernel, by decide +kernel, by decide +kernel, by decide +kernel⟩

end Baa
