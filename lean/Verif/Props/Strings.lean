import Verif.Proofs.Strings
import Verif.Props.BytesBig
import Verif.Spec.Text

/-! # Properties C30–C39: printing and parsing -/

namespace Baa
open Res Strings

/-! ## C30 -/

/-- **C30** `to_bit_str` returns exactly `w` characters, character `k` from the left is `1` iff bit `w-1-k` is set. -/
theorem C30_to_bit_str {w : Nat} {a : BitVecValue} {x : BitVec w} (ha : Denotes a x) :
    BitVecValue.toBitStr a =
      ok ((List.range w).map fun k => if x.getLsbD (w - 1 - k) then ch '1' else ch '0') := by
  unfold BitVecValue.toBitStr toBitStr
  rw [ha.width_eq]
  by_cases h0 : w = 0
  · subst h0; rfl
  · rw [toBitStrInternal_eq (by omega) (by intro e; have := ha.length_eq; rw [e] at this; simp at this; omega),
      List.nil_append, show (w - 1) % 64 + 1 + 64 * (a.words.length - 1) = w by have := ha.length_eq; omega]
    congr 1
    apply List.ext_getElem (by simp [msbDigits_length])
    intro k h1 h2
    have hk : k < w := by simpa using h2
    simp only [msbDigits, List.getElem_map, List.getElem_reverse, List.getElem_range, List.length_range]
    rw [ha.val_eq, ← BitVec.testBit_toNat, Nat.testBit_eq_decide_div_mod_eq]
    unfold binChar
    by_cases hb : x.toNat / 2 ^ (w - 1 - k) % 2 = 1 <;> simp [hb]

/-- The same statement in the vocabulary of numerals: `w` binary digits that spell the value. -/
theorem C30_to_bit_str_value {w : Nat} (h0 : 0 < w) {a : BitVecValue} {x : BitVec w} (ha : Denotes a x) :
    ∃ s, BitVecValue.toBitStr a = ok s ∧ s.length = w ∧ digitsVal 2 s = some x.toNat := by
  unfold BitVecValue.toBitStr toBitStr
  rw [ha.width_eq, toBitStrInternal_eq (by omega)
    (by intro e; have := ha.length_eq; rw [e] at this; simp at this; omega), List.nil_append,
    show (w - 1) % 64 + 1 + 64 * (a.words.length - 1) = w by have := ha.length_eq; omega]
  refine ⟨_, rfl, msbDigits_length _ _ _ _, ?_⟩
  unfold digitsVal
  rw [if_neg (by intro e; have := msbDigits_length 2 binChar (wordsVal a.words) w; rw [e] at this; simp at this; omega),
    digitsFrom_msbDigits (by decide) digitOf_binChar, ha.val_eq, Nat.mod_eq_of_lt x.isLt]
  simp

example : Denotes (encode 5#4) 5#4 ∧ BitVecValue.toBitStr (encode 5#4) = ok ("0101".toList.map ch) :=
  ⟨encode_denotes _ (by decide), by decide⟩

/-! ## C31 -/

/-- **C31** `to_hex_str` returns exactly `⌈w/4⌉` lower-case hexadecimal digits that spell the unsigned value. -/
theorem C31_to_hex_str (m : Mode) {w : Nat} (h0 : 0 < w) {a : BitVecValue} {x : BitVec w} (ha : Denotes a x) :
    ∃ s, BitVecValue.toHexStr m a = ok s ∧ s.length = (w + 3) / 4 ∧ (∀ c ∈ s, c ∈ lowerDigits.take 16) ∧
      digitsVal 16 s = some x.toNat := by
  unfold BitVecValue.toHexStr toHexStr
  rw [ha.width_eq, toHexStrInternal_eq ha.length_eq h0, List.nil_append]
  refine ⟨_, rfl, msbDigits_length _ _ _ _, ?_, ?_⟩
  · intro c hc
    unfold msbDigits at hc
    obtain ⟨i, _, rfl⟩ := List.mem_map.mp hc
    have : ∀ d, d < 16 → hexChar d ∈ lowerDigits.take 16 := by decide
    exact this _ (Nat.mod_lt _ (by decide))
  · unfold digitsVal
    rw [if_neg (by
        intro e
        have := msbDigits_length 16 hexChar (wordsVal a.words) ((w + 3) / 4)
        rw [e] at this; simp at this; omega),
      digitsFrom_msbDigits (by decide) digitOf_hexChar, ha.val_eq, Nat.mod_eq_of_lt]
    · simp
    · refine Nat.lt_of_lt_of_le x.isLt ?_
      rw [show (16 : Nat) = 2 ^ 4 from rfl, ← Nat.pow_mul]
      exact Nat.pow_le_pow_right (by decide) (by omega)

/-- **C31**, width 0: the empty string. -/
theorem C31_to_hex_str_width_zero (m : Mode) {a : BitVecValue} {x : BitVec 0} (ha : Denotes a x) :
    BitVecValue.toHexStr m a = ok [] := by
  rw [ha.eq_encode, BitVec.eq_nil x]
  cases m <;> decide

example : Denotes (encode 0xabc#13) 0xabc#13 ∧
    BitVecValue.toHexStr .debug (encode 0xabc#13) = ok ("0abc".toList.map ch) :=
  ⟨encode_denotes _ (by decide), by decide⟩

/-! ## C32 -/

/-- **C32, full statement**. -/
def C32_statement : Prop := ∀ (m : Mode) {w : Nat} {a : BitVecValue} {x : BitVec w}, Denotes a x →
  ∃ s, BitVecValue.toDecStr m a = ok s ∧ IsDecimal x.toNat s

/-- **C32, proved part**: for every value below `2^128` (of any width below 2^32 / 3 in a debug build, of any width in a
release build) `to_dec_str` prints the decimal value without leading zeros.
Missing: larger values, for which the code is a `todo!()`, and a debug overflow in a capacity hint for huge widths. -/
theorem C32_to_dec_str_partial (m : Mode) {w : Nat} {a : BitVecValue} {x : BitVec w} (ha : Denotes a x)
    (hx : x.toNat < 2 ^ 128) (hw : m = .release ∨ w * 3 < 2 ^ 32) :
    ∃ s, BitVecValue.toDecStr m a = ok s ∧ IsDecimal x.toNat s := by
  refine ⟨decimal x.toNat, ?_, ?_, ?_⟩
  · unfold BitVecValue.toDecStr toDecStr
    rw [ha.width_eq]
    have hm : ∃ k, mulC m U32 w 3 = ok k := by
      rcases hw with hw | hw
      · subst hw
        unfold mulC
        split <;> exact ⟨_, rfl⟩
      · exact ⟨_, mulC_ok (by show w * 3 < 4294967296; omega)⟩
    obtain ⟨k, hk⟩ := hm
    rw [hk, ok_bind, toDecStrInternal_eq m (by rw [ha.val_eq]; exact hx), ha.val_eq]
  · unfold digitsVal
    rw [if_neg (decimal_ne_nil _), digitsFrom_decimal]
  · intro h
    by_cases h0 : x.toNat = 0
    · rw [h0, decimal_zero]
    · exact absurd h (decimal_head h0)

/-- Values of `2^128` and more always panic. -/
theorem C32_to_dec_str_wide_panics (m : Mode) {w : Nat} {a : BitVecValue} {x : BitVec w} (ha : Denotes a x)
    (hx : 2 ^ 128 ≤ x.toNat) : ∃ p, BitVecValue.toDecStr m a = panic p := by
  unfold BitVecValue.toDecStr toDecStr
  cases h : mulC m U32 a.width 3 with
  | panic p => exact ⟨p, rfl⟩
  | ok k => exact ⟨.todo, by rw [ok_bind, toDecStrInternal_todo m (by rw [ha.val_eq]; exact hx)]⟩

/-- **C32 is false of the code**: `2^128` cannot be printed. -/
theorem C32_refuted : ¬ C32_statement := fun h => by
  obtain ⟨s, hs, _⟩ := h .release (encode_denotes (BitVec.ofNat 129 (2 ^ 128)) (by decide))
  obtain ⟨p, hp⟩ := C32_to_dec_str_wide_panics .release (encode_denotes (BitVec.ofNat 129 (2 ^ 128)) (by decide))
    (by decide)
  rw [hs] at hp
  cases hp

example : Denotes (encode 1234#100) 1234#100 ∧ 1234 < 2 ^ 128 ∧
    BitVecValue.toDecStr .debug (encode 1234#100) = ok ("1234".toList.map ch) :=
  ⟨encode_denotes _ (by decide), by decide, by decide +kernel⟩

/-! ## C33 -/

/-- **C33, full statement**. -/
def C33_statement : Prop := ∀ (m : Mode) {w : Nat} {a : BitVecValue} {x : BitVec w}, 0 < w → Denotes a x →
  ∃ s, BitVecValue.toBitStrSigned m a = ok s ∧ IsSigned 2 x.toInt s

theorem digitsVal_msbDigits {b : Nat} (hb : 0 < b) {f : Nat → Byte} (hf : ∀ d, d < b → digitOf b (f d) = some d)
    {v n : Nat} (hn : 0 < n) (hv : v < b ^ n) : digitsVal b (msbDigits b f v n) = some v := by
  unfold digitsVal
  rw [if_neg (by intro e; have := msbDigits_length b f v n; rw [e] at this; simp at this; omega),
    digitsFrom_msbDigits hb hf, Nat.mod_eq_of_lt hv]
  simp

/-- Sign, magnitude and negation of a value. -/
theorem signed_cases (m : Mode) {w : Nat} (h0 : 0 < w) {a : BitVecValue} {x : BitVec w} (ha : Denotes a x) :
    (Arith.isNeg m a.words w = ok false ∧ 0 ≤ x.toInt ∧ x.toInt.natAbs = x.toNat ∧ x.toNat < 2 ^ (w - 1)) ∨
    (Arith.isNeg m a.words w = ok true ∧ x.toInt < 0 ∧ ∃ r, Arith.negateInPlace m a.words w = ok r ∧
      r.length = (w + 63) / 64 ∧ wordsVal r = x.toInt.natAbs ∧ x.toInt.natAbs ≤ 2 ^ (w - 1) ∧
      (x.toInt.natAbs = 2 ^ (w - 1) ↔ x = BitVec.intMin w)) := by
  have hx := x.isLt
  have hti := toInt_of_bit x
  have hmsb := BitVec.msb_eq_decide x
  rw [BitVec.msb_eq_getLsbD_last] at hmsb
  have hpos := Nat.two_pow_pos (w - 1)
  have hpw : 2 ^ w = 2 * 2 ^ (w - 1) := by rw [← Nat.pow_succ']; congr 1; omega
  have hcast : ((2 ^ w : Nat) : Int) = (2 : Int) ^ w := by norm_cast
  rw [Arith.isNeg_spec h0 ha.length_eq, ha.bit]
  by_cases hn : x.getLsbD (w - 1) = true
  · right
    rw [if_pos hn] at hti
    rw [hn] at hmsb
    have hge : 2 ^ (w - 1) ≤ x.toNat := by simpa using hmsb.symm
    have habs : x.toInt.natAbs = 2 ^ w - x.toNat := by omega
    obtain ⟨r, h1, h2, h3⟩ := Arith.negateInPlace_spec' (m := m) h0 ha.length_eq (by rw [ha.val_eq]; exact hx)
    refine ⟨by rw [hn], by omega, r, h1, h2, ?_, by omega, ?_⟩
    · rw [h3, ha.val_eq, Nat.mod_eq_of_lt (by omega), habs]
    · rw [habs]
      constructor
      · intro h
        apply BitVec.eq_of_toNat_eq
        rw [BitVec.toNat_intMin_of_pos h0]
        omega
      · intro h
        rw [h, BitVec.toNat_intMin_of_pos h0]
        omega
  · left
    rw [if_neg hn] at hti
    have hn' : x.getLsbD (w - 1) = false := by simpa using hn
    rw [hn'] at hmsb
    have hlt : x.toNat < 2 ^ (w - 1) := by
      have : ¬ 2 ^ (w - 1) ≤ x.toNat := by simpa using hmsb.symm
      omega
    exact ⟨by rw [hn'], by omega, by omega, hlt⟩

/-- **C33, proved part**: for widths of at least 2 the sign and the digits are right, except for the smallest value
`-2^(w-1)` when `w` is not of the form `64k+1`.
Missing: width 1 (nothing is printed) and the smallest value (its digits are all zero, see `C33_min_value`). -/
theorem C33_to_bit_str_signed_partial (m : Mode) {w : Nat} (h2 : 2 ≤ w) {a : BitVecValue} {x : BitVec w}
    (ha : Denotes a x) (hmin : x ≠ BitVec.intMin w ∨ w % 64 = 1) :
    ∃ s, BitVecValue.toBitStrSigned m a = ok s ∧ IsSigned 2 x.toInt s := by
  have hne : ∀ ws : List Word, ws.length = (w + 63) / 64 → ws ≠ [] := by
    intro ws h e; rw [e] at h; simp at h; omega
  unfold BitVecValue.toBitStrSigned toBitStrSigned
  rw [ha.width_eq]
  rcases signed_cases m (by omega) ha with ⟨h1, h3, h4, h5⟩ | ⟨h1, h3, r, h4, h5, h6, h7, h8⟩
  · rw [h1, ok_bind, if_neg (by decide), subC_ok (by omega), ok_bind, toBitStr,
      toBitStrInternal_eq (by omega) (hne _ ha.length_eq), List.nil_append]
    refine ⟨_, rfl, _, by rw [if_neg (by omega)], ?_⟩
    rw [h4, ← ha.val_eq]
    apply digitsVal_msbDigits (by decide) digitOf_binChar (by omega)
    rw [ha.val_eq, ha.length_eq]
    exact Nat.lt_of_lt_of_le h5 (Nat.pow_le_pow_right (by decide) (by omega))
  · rw [h1, ok_bind, if_pos rfl, h4, ok_bind, subC_ok (by omega), ok_bind, toBitStrInternal_eq (by omega) (hne _ h5)]
    refine ⟨_, rfl, _, by rw [if_pos h3, List.singleton_append], ?_⟩
    rw [← h6]
    apply digitsVal_msbDigits (by decide) digitOf_binChar (by omega)
    rw [h6, h5]
    by_cases hw : w % 64 = 1
    · have : 2 ^ (w - 1) < 2 ^ ((w - 1 - 1) % 64 + 1 + 64 * ((w + 63) / 64 - 1)) :=
        Nat.pow_lt_pow_right (by decide) (by omega)
      omega
    · have hx : x ≠ BitVec.intMin w := hmin.resolve_right hw
      have : x.toInt.natAbs ≠ 2 ^ (w - 1) := fun e => hx (h8.mp e)
      rw [show (w - 1 - 1) % 64 + 1 + 64 * ((w + 63) / 64 - 1) = w - 1 by omega]
      omega

/-- The smallest value of width `w ≥ 2`, `w` not of the form `64k+1`, is printed as `-` and `w-1` zeros. -/
theorem C33_min_value (m : Mode) {w : Nat} (h2 : 2 ≤ w) {a : BitVecValue} (ha : Denotes a (BitVec.intMin w))
    (hw : w % 64 ≠ 1) :
    ∃ ds, BitVecValue.toBitStrSigned m a = ok (ch '-' :: ds) ∧ ds.length = w - 1 ∧ digitsVal 2 ds = some 0 := by
  unfold BitVecValue.toBitStrSigned toBitStrSigned
  rw [ha.width_eq]
  have hpos := Nat.two_pow_pos (w - 1)
  rcases signed_cases m (by omega) ha with ⟨h1, h3, h4, h5⟩ | ⟨h1, h3, r, h4, h5, h6, h7, h8⟩
  · exfalso
    rw [BitVec.toNat_intMin_of_pos (by omega)] at h5
    omega
  · have hne : r ≠ [] := by intro e; rw [e] at h5; simp at h5; omega
    rw [h1, ok_bind, if_pos rfl, h4, ok_bind, subC_ok (by omega), ok_bind, toBitStrInternal_eq (by omega) hne,
      List.singleton_append, h6, h8.mpr rfl, h5,
      show (w - 1 - 1) % 64 + 1 + 64 * ((w + 63) / 64 - 1) = w - 1 by omega]
    refine ⟨_, rfl, msbDigits_length _ _ _ _, ?_⟩
    rw [← msbDigits_mod 2 binChar _ _ (Nat.le_refl (w - 1)), Nat.mod_self]
    exact digitsVal_msbDigits (by decide) digitOf_binChar (by omega) hpos

/-- **C33 is false of the code**: `-128` of width 8 is printed as `-0000000`. -/
theorem C33_refuted : ¬ C33_statement := fun h => by
  obtain ⟨s, hs, ds, h1, h2⟩ := h .debug (by decide) (encode_denotes 128#8 (by decide))
  obtain ⟨ds', h3, _, h4⟩ := C33_min_value .debug (w := 8) (by decide) (encode_denotes 128#8 (by decide)) (by decide)
  rw [h3] at hs
  cases hs
  rw [if_pos (by decide)] at h1
  cases h1
  rw [h4] at h2
  revert h2
  decide

example : Denotes (encode (-5#8)) (-5#8) ∧ (-5#8) ≠ BitVec.intMin 8 ∧
    BitVecValue.toBitStrSigned .debug (encode (-5#8)) = ok ("-0000101".toList.map ch) :=
  ⟨encode_denotes _ (by decide), by decide, by decide⟩

/-! ## C34 -/

/-- **C34, full statement**. -/
def C34_statement : Prop := ∀ (m : Mode) {w : Nat} {a : BitVecValue} {x : BitVec w}, 0 < w → Denotes a x →
  ∃ s, BitVecValue.toHexStrSigned m a = ok s ∧ IsSigned 16 x.toInt s

theorem sixteen_pow (n : Nat) : 16 ^ n = 2 ^ (4 * n) := by
  rw [show (16 : Nat) = 2 ^ 4 from rfl, ← Nat.pow_mul]

theorem selectWordsForWidth_eq (m : Mode) {ws : List Word} {w : Nat} (h0 : 0 < w) (h : ws.length = (w + 63) / 64) :
    selectWordsForWidth m ws (w - 1) = ok (ws.take ((w - 1 + 63) / 64)) := by
  have hd : divCeil (w - 1) BITS = (w - 1 + 63) / 64 := rfl
  unfold selectWordsForWidth
  dsimp only
  rw [hd, debugAssert_of (by simp; omega), ok_bind, sliceR_ok (by omega) (by omega), List.drop_zero, Nat.sub_zero]

/-- **C34, proved part**: for widths of at least 2 the sign and the digits are right, except for the smallest value
`-2^(w-1)` when `w - 1` is a multiple of 4.
Missing: width 1 (nothing is printed) and the smallest value (its digits are all zero, see `C34_min_value`). -/
theorem C34_to_hex_str_signed_partial (m : Mode) {w : Nat} (h2 : 2 ≤ w) {a : BitVecValue} {x : BitVec w}
    (ha : Denotes a x) (hmin : x ≠ BitVec.intMin w ∨ (w - 1) % 4 ≠ 0) :
    ∃ s, BitVecValue.toHexStrSigned m a = ok s ∧ IsSigned 16 x.toInt s := by
  have hle4 : w - 1 ≤ 4 * ((w - 1 + 3) / 4) := by omega
  have hle64 : w - 1 ≤ 64 * ((w - 1 + 63) / 64) := by omega
  have key : ∀ ws : List Word, ∀ out : List Byte, ws.length = (w + 63) / 64 → wordsVal ws = x.toInt.natAbs →
      wordsVal ws < 16 ^ ((w - 1 + 3) / 4) → wordsVal ws < 2 ^ (64 * ((w - 1 + 63) / 64)) →
      ∃ ds, (selectWordsForWidth m ws (w - 1) >>= fun ws => toHexStrInternal m ws (w - 1) out) = ok (out ++ ds) ∧
        digitsVal 16 ds = some x.toInt.natAbs := by
    intro ws out hl hv hv16 hv64
    rw [selectWordsForWidth_eq m (by omega) hl, ok_bind,
      toHexStrInternal_eq (by rw [List.length_take, Nat.min_eq_left (by omega)]) (by omega)]
    refine ⟨_, rfl, ?_⟩
    rw [Big.wordsVal_take, Nat.mod_eq_of_lt hv64, ← hv]
    exact digitsVal_msbDigits (by decide) digitOf_hexChar (by omega) hv16
  unfold BitVecValue.toHexStrSigned toHexStrSigned
  rw [ha.width_eq]
  rcases signed_cases m (by omega) ha with ⟨h1, h3, h4, h5⟩ | ⟨h1, h3, r, h4, h5, h6, h7, h8⟩
  · obtain ⟨ds, g1, g2⟩ := key a.words [] ha.length_eq (by rw [ha.val_eq, h4])
      (by rw [ha.val_eq, sixteen_pow]; exact Nat.lt_of_lt_of_le h5 (Nat.pow_le_pow_right (by decide) hle4))
      (by rw [ha.val_eq]; exact Nat.lt_of_lt_of_le h5 (Nat.pow_le_pow_right (by decide) hle64))
    rw [h1, ok_bind, if_neg (by decide), subC_ok (by omega), ok_bind]
    exact ⟨_, g1, ds, by rw [if_neg (by omega), List.nil_append], g2⟩
  · have hlt : ∀ k, w - 1 ≤ k → (w - 1 < k ∨ x ≠ BitVec.intMin w) → wordsVal r < 2 ^ k := by
      intro k hk hc
      rw [h6]
      rcases hc with hc | hc
      · have : 2 ^ (w - 1) < 2 ^ k := Nat.pow_lt_pow_right (by decide) hc
        omega
      · have : x.toInt.natAbs ≠ 2 ^ (w - 1) := fun e => hc (h8.mp e)
        have : 2 ^ (w - 1) ≤ 2 ^ k := Nat.pow_le_pow_right (by decide) hk
        omega
    obtain ⟨ds, g1, g2⟩ := key r [ch '-'] h5 h6
      (by
        rw [sixteen_pow]
        exact hlt _ hle4 (by rcases hmin with h | h; exact Or.inr h; exact Or.inl (by omega)))
      (hlt _ hle64 (by rcases hmin with h | h; exact Or.inr h; exact Or.inl (by omega)))
    rw [h1, ok_bind, if_pos rfl, h4, ok_bind, subC_ok (by omega), ok_bind]
    exact ⟨_, g1, ds, by rw [if_pos h3, List.singleton_append], g2⟩

/-- The smallest value of width `w ≥ 2`, `w - 1` a multiple of 4, is printed as `-` and `(w-1)/4` zeros. -/
theorem C34_min_value (m : Mode) {w : Nat} (h2 : 2 ≤ w) {a : BitVecValue} (ha : Denotes a (BitVec.intMin w))
    (hw : (w - 1) % 4 = 0) :
    ∃ ds, BitVecValue.toHexStrSigned m a = ok (ch '-' :: ds) ∧ ds.length = (w - 1) / 4 ∧ digitsVal 16 ds = some 0 := by
  unfold BitVecValue.toHexStrSigned toHexStrSigned
  rw [ha.width_eq]
  rcases signed_cases m (by omega) ha with ⟨h1, h3, h4, h5⟩ | ⟨h1, h3, r, h4, h5, h6, h7, h8⟩
  · exfalso
    rw [BitVec.toNat_intMin_of_pos (by omega)] at h5
    omega
  · have e4 : (w - 1 + 3) / 4 = (w - 1) / 4 := by omega
    have e16 : 16 ^ ((w - 1) / 4) = 2 ^ (w - 1) := by rw [sixteen_pow]; congr 1; omega
    rw [h1, ok_bind, if_pos rfl, h4, ok_bind, subC_ok (by omega), ok_bind, selectWordsForWidth_eq m (by omega) h5, ok_bind,
      toHexStrInternal_eq (by rw [List.length_take, Nat.min_eq_left (by omega)]) (by omega), e4, List.singleton_append,
      Big.wordsVal_take, h6, h8.mpr rfl]
    refine ⟨_, rfl, msbDigits_length _ _ _ _, ?_⟩
    rw [← msbDigits_mod 16 hexChar _ _ (Nat.le_refl ((w - 1) / 4)), e16,
      Arith.pow_mod_pow_mod _ (show w - 1 ≤ 64 * ((w - 1 + 63) / 64) by omega), Nat.mod_self]
    exact digitsVal_msbDigits (by decide) digitOf_hexChar (by omega) (Nat.pow_pos (by decide))

/-- **C34 is false of the code**: `-16` of width 5 is printed as `-0`. -/
theorem C34_refuted : ¬ C34_statement := fun h => by
  obtain ⟨s, hs, ds, h1, h2⟩ := h .debug (by decide) (encode_denotes 16#5 (by decide))
  obtain ⟨ds', h3, _, h4⟩ := C34_min_value .debug (w := 5) (by decide) (encode_denotes 16#5 (by decide)) (by decide)
  rw [h3] at hs
  cases hs
  rw [if_pos (by decide)] at h1
  cases h1
  rw [h4] at h2
  revert h2
  decide

example : Denotes (encode (-5#8)) (-5#8) ∧ (8 - 1) % 4 ≠ 0 ∧
    BitVecValue.toHexStrSigned .debug (encode (-5#8)) = ok ("-05".toList.map ch) :=
  ⟨encode_denotes _ (by decide), by decide, by decide⟩

end Baa
