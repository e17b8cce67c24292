import Verif.Props.Strings

/-! # Properties C35–C39: parsing -/

namespace Baa
open Res Strings

deriving instance DecidableEq for Except

/-! ## C35, C36 -/

theorem zero_words_val (w : Nat) : wordsVal (BitVecValue.zero w).words = 0 := wordsVal_replicate_zero _

theorem zero_words_length (w : Nat) : (BitVecValue.zero w).words.length = (w + 63) / 64 := length_valueVecZeros w

theorem assignFromStrRadix_eq {m : Mode} {v : BitVecValue} {s : List Byte} {radix : Nat} {o : List Word}
    {r : Except IntErrorKind Unit} (h : Strings.fromStrRadix m s radix v.words v.width = ok (o, r)) :
    BitVecValue.assignFromStrRadix m v s radix = ok ({ v with words := o }, r) := by
  unfold BitVecValue.assignFromStrRadix
  rw [h, ok_bind]

theorem fromStrRadix_eq_ok {m : Mode} {s : List Byte} {radix w : Nat} {o : List Word}
    (h : Strings.fromStrRadix m s radix (BitVecValue.zero w).words w = ok (o, .ok ())) :
    BitVecValue.fromStrRadix m s radix w = ok (.ok ⟨w, o⟩) := by
  unfold BitVecValue.fromStrRadix
  rw [assignFromStrRadix_eq (v := BitVecValue.zero w) h, ok_bind]
  rfl

theorem fromStrRadix_eq_err {m : Mode} {s : List Byte} {radix w : Nat} {o : List Word} {e : IntErrorKind}
    (h : Strings.fromStrRadix m s radix (BitVecValue.zero w).words w = ok (o, .error e)) :
    BitVecValue.fromStrRadix m s radix w = ok (.error e) := by
  unfold BitVecValue.fromStrRadix
  rw [assignFromStrRadix_eq (v := BitVecValue.zero w) h, ok_bind]

theorem fromStrRadix_eq_panic {m : Mode} {s : List Byte} {radix w : Nat} {p : Panic}
    (h : Strings.fromStrRadix m s radix (BitVecValue.zero w).words w = panic p) :
    BitVecValue.fromStrRadix m s radix w = panic p := by
  unfold BitVecValue.fromStrRadix BitVecValue.assignFromStrRadix
  have : (BitVecValue.zero w).width = w := rfl
  rw [this, h]
  rfl

/-- A successful magnitude parse on a zero value gives the value of the numeral. -/
theorem fromStrRadix_denotes {m : Mode} {s : List Byte} {radix w : Nat} {z : Int} (h0 : 1 ≤ w) (hw : w < 2 ^ 32)
    (hz : signedVal radix s = some z) (hm : MagOk m (stripMinus s) radix (BitVecValue.zero w).words w z.natAbs)
    (hfit : s.head? = some (ch '-') ∨ z.natAbs < 2 ^ w) :
    ∃ r, BitVecValue.fromStrRadix m s radix w = ok (.ok r) ∧ Denotes r (BitVec.ofInt w z) := by
  obtain ⟨o, h1, h2, h3⟩ := fromStrRadix_ok h0 (zero_words_length w) hz hm hfit
  exact ⟨_, fromStrRadix_eq_ok h1, hw, rfl, by rw [h2, zero_words_length], h3⟩

theorem magOk_wide2 {m : Mode} {w n : Nat} {s : List Byte} (hw : 128 < w) (hw' : w < 2 ^ 32) (hs : s ≠ [])
    (hlen : (stripPlus s).length ≤ w) (hn : unsignedVal 2 s = some n) :
    MagOk m s 2 (BitVecValue.zero w).words w n := by
  obtain ⟨o, h1, h2, h3, h4⟩ := (parseMagnitude_wide2 (m := m) hw hw' (zero_words_length w) hs hlen).1 n hn
  exact ⟨o, h1, h2, by rw [wordsVal_take_drop_zero (zero_words_val w) h4, h3]⟩

theorem magOk_wide16 {m : Mode} {w n : Nat} {s : List Byte} (hw : 128 < w) (hs : s ≠ [])
    (hlen : (4 * (stripPlus s).length + 63) / 64 ≤ (w + 63) / 64) (hu : 4 * (stripPlus s).length < 2 ^ 32)
    (hn : unsignedVal 16 s = some n) : MagOk m s 16 (BitVecValue.zero w).words w n := by
  obtain ⟨o, h1, h2, h3, h4⟩ := (parseMagnitude_wide16 (m := m) hw (zero_words_length w) hs
    (by rw [zero_words_length]; exact hlen) hu).1 n hn
  exact ⟨o, h1, h2, by rw [wordsVal_take_drop_zero (zero_words_val w) h4, h3]⟩

theorem stripPlus_length_le (s : List Byte) : (stripPlus s).length ≤ s.length := by
  unfold stripPlus
  split <;> simp

theorem numeralDigits_length_le {bits : Nat} (hb : 1 ≤ bits) (s : List Byte) :
    bits * (numeralDigits s).length ≤ numeralWidth bits s ∧
      (s ≠ [] → s ≠ [ch '+'] → 1 ≤ numeralWidth bits s) := by
  have hle : ∀ a b, a ≤ b → bits * a ≤ bits * b := fun a b h => Nat.mul_le_mul_left _ h
  unfold numeralWidth numeralDigits stripMinus
  constructor
  · split
    · next hm =>
      have h1 := stripPlus_length_le s.tail
      rw [List.length_tail] at h1
      have := hle _ _ h1
      omega
    · next hm =>
      split
      · next hp => unfold stripPlus; rw [if_pos hp, List.length_tail]; exact Nat.le_refl _
      · exact hle _ _ (stripPlus_length_le s)
  · intro hs hp
    split
    · omega
    · split
      · next hh =>
        match s, hs, hp with
        | [c], _, hp => simp at hh; subst hh; exact absurd rfl hp
        | c :: c' :: cs, _, _ =>
          have := hle 1 ((c :: c' :: cs).length - 1) (by simp)
          omega
      · have := hle 1 s.length (by match s, hs with | c :: cs, _ => simp)
        omega

theorem digits_natAbs_lt {radix : Nat} {s : List Byte} {z : Int} (hz : signedVal radix s = some z) :
    z.natAbs < radix ^ (numeralDigits s).length := by
  obtain ⟨_, _, h, _⟩ := signedVal_some hz
  exact (digitsVal_lt h).2

theorem numeralDigits_pos {radix : Nat} {s : List Byte} {z : Int} (hz : signedVal radix s = some z) :
    numeralDigits s ≠ [] := by
  obtain ⟨_, _, h, _⟩ := signedVal_some hz
  exact (digitsVal_lt h).1

theorem fromStrRadix_minus {m : Mode} {radix w : Nat} {out : List Word} (h0 : 1 ≤ w) {s : List Byte} (hs : s ≠ [])
    (h : stripMinus s = []) : Strings.fromStrRadix m s radix out w = ok (out, .error .invalidDigit) := by
  rw [Strings.fromStrRadix_eq hs h0, if_pos h]

/-- Shared by `from_bit_str` and `from_hex_str`: parsing at the width determined from the string. -/
theorem fromStrRadix_numeralWidth (m : Mode) {radix bits : Nat}
    (h : radix = 2 ∧ bits = 1 ∨ radix = 16 ∧ bits = 4) {s : List Byte} (hlen : numeralWidth bits s < 2 ^ 32) :
    (s = [] → ∃ r, BitVecValue.fromStrRadix m s radix (numeralWidth bits s) = ok (.ok r) ∧ Denotes r 0#0) ∧
    (∀ z, signedVal radix s = some z →
      ∃ r, BitVecValue.fromStrRadix m s radix (numeralWidth bits s) = ok (.ok r) ∧
        Denotes r (BitVec.ofInt (numeralWidth bits s) z)) ∧
    (s ≠ [] → signedVal radix s = none →
      ∃ e, BitVecValue.fromStrRadix m s radix (numeralWidth bits s) = ok (.error e)) := by
  have hb : 1 ≤ bits := by omega
  have hr : 2 ≤ radix ∧ radix ≤ 36 := by omega
  have hrb : radix = 2 ^ bits := by rcases h with ⟨h1, h2⟩ | ⟨h1, h2⟩ <;> (subst h1 h2; rfl)
  obtain ⟨hdl, hwpos⟩ := numeralDigits_length_le hb s
  generalize hW : numeralWidth bits s = W at *
  have hzl := zero_words_length W
  refine ⟨fun hs => ?_, fun z hz => ?_, fun hs hz => ?_⟩
  · subst hs
    simp [numeralWidth] at hW
    subst hW
    exact ⟨⟨0, []⟩, by unfold BitVecValue.fromStrRadix BitVecValue.assignFromStrRadix Strings.fromStrRadix; rfl, by decide,
      rfl, rfl, rfl⟩
  · obtain ⟨hs, hs', hu, _⟩ := signedVal_some hz
    have hlt := digits_natAbs_lt hz
    rw [hrb, ← Nat.pow_mul] at hlt
    have hltW : z.natAbs < 2 ^ W := Nat.lt_of_lt_of_le hlt (Nat.pow_le_pow_right (by decide) hdl)
    have h1 : 1 ≤ W := by
      have := List.length_pos_iff.mpr (numeralDigits_pos hz)
      have := Nat.mul_le_mul_left bits (show 1 ≤ (numeralDigits s).length from this)
      omega
    apply fromStrRadix_denotes h1 (by omega) hz _ (Or.inr hltW)
    by_cases hw : W ≤ 128
    · refine (parseMagnitude_small (m := m) h1 hw hzl hr.1 hr.2 hs').1 _ hu ?_
      exact Nat.lt_of_lt_of_le hltW (Nat.pow_le_pow_right (by decide) (by rw [hzl]; omega))
    · rcases h with ⟨h2, h3⟩ | ⟨h2, h3⟩
      · subst h2 h3
        exact magOk_wide2 (by omega) (by omega) hs' (by show (numeralDigits s).length ≤ W; omega) hu
      · subst h2 h3
        refine magOk_wide16 (by omega) hs' ?_ ?_ hu
        · show (4 * (numeralDigits s).length + 63) / 64 ≤ _; omega
        · show 4 * (numeralDigits s).length < _; omega
  · by_cases hp : s = [ch '+']
    · have hW0 : W = 0 := by
        rw [← hW, hp]
        have h3 : ¬ ch '+' = ch '-' := by decide
        simp [numeralWidth, h3]
      rw [hp, hW0]
      exact ⟨.exceedsWidth, fromStrRadix_eq_err (by
        unfold Strings.fromStrRadix
        rfl)⟩
    · have h1 := hwpos hs hp
      have hu := signedVal_none hz
      by_cases hs' : stripMinus s = []
      · exact ⟨_, fromStrRadix_eq_err (fromStrRadix_minus h1 hs hs')⟩
      · by_cases hw : W ≤ 128
        · obtain ⟨e, he⟩ := (parseMagnitude_small (m := m) h1 hw hzl hr.1 hr.2 hs').2.2 hu
          exact ⟨e, fromStrRadix_eq_err (fromStrRadix_err h1 hs hs' he)⟩
        · rcases h with ⟨h2, h3⟩ | ⟨h2, h3⟩
          · subst h2 h3
            obtain ⟨o, e, he⟩ := (parseMagnitude_wide2 (m := m) (by omega) (show W < U32 by show W < 4294967296; omega) hzl hs'
              (by show (numeralDigits s).length ≤ W; omega)).2 hu
            exact ⟨e, fromStrRadix_eq_err (fromStrRadix_err h1 hs hs' he)⟩
          · subst h2 h3
            obtain ⟨o, e, he⟩ := (parseMagnitude_wide16 (m := m) (by omega) hzl hs'
              (by rw [hzl]; show (4 * (numeralDigits s).length + 63) / 64 ≤ _; omega)
              (by show 4 * (numeralDigits s).length < 4294967296; omega)).2 hu
            exact ⟨e, fromStrRadix_eq_err (fromStrRadix_err h1 hs hs' he)⟩

/-- **C35** `from_bit_str` accepts exactly the empty string and the signed binary numerals and computes their value, for
every string whose width fits into the width type `u32`; all other strings give an error; it never panics. -/
theorem C35_from_bit_str (m : Mode) {s : List Byte} (hlen : numeralWidth 1 s < 2 ^ 32) :
    (s = [] → ∃ r, BitVecValue.fromBitStr m s = ok (.ok r) ∧ Denotes r 0#0) ∧
    (∀ z, signedVal 2 s = some z →
      ∃ r, BitVecValue.fromBitStr m s = ok (.ok r) ∧ Denotes r (BitVec.ofInt (numeralWidth 1 s) z)) ∧
    (s ≠ [] → signedVal 2 s = none → ∃ e, BitVecValue.fromBitStr m s = ok (.error e)) := by
  unfold BitVecValue.fromBitStr
  rw [determineWidth_eq (bits := 1) (Or.inl ⟨rfl, rfl⟩) hlen, ok_bind]
  exact fromStrRadix_numeralWidth m (Or.inl ⟨rfl, rfl⟩) hlen

example : signedVal 2 ("-101".toList.map ch) = some (-5) ∧ signedVal 2 ("-1a1".toList.map ch) = none ∧
    BitVecValue.fromBitStr .debug ("-101".toList.map ch) = ok (.ok (encode (BitVec.ofInt 4 (-5)))) ∧
    BitVecValue.fromBitStr .debug ("-1a1".toList.map ch) = ok (.error .invalidDigit) := by decide +kernel

/-- **C36** `from_hex_str` accepts exactly the empty string and the signed hexadecimal numerals (either case) and
computes their value, for every string whose width fits into the width type `u32`; all other strings give an error. -/
theorem C36_from_hex_str (m : Mode) {s : List Byte} (hlen : numeralWidth 4 s < 2 ^ 32) :
    (s = [] → ∃ r, BitVecValue.fromHexStr m s = ok (.ok r) ∧ Denotes r 0#0) ∧
    (∀ z, signedVal 16 s = some z →
      ∃ r, BitVecValue.fromHexStr m s = ok (.ok r) ∧ Denotes r (BitVec.ofInt (numeralWidth 4 s) z)) ∧
    (s ≠ [] → signedVal 16 s = none → ∃ e, BitVecValue.fromHexStr m s = ok (.error e)) := by
  unfold BitVecValue.fromHexStr
  rw [determineWidth_eq (bits := 4) (Or.inr ⟨rfl, rfl⟩) hlen, ok_bind]
  exact fromStrRadix_numeralWidth m (Or.inr ⟨rfl, rfl⟩) hlen

example : signedVal 16 ("-aB3".toList.map ch) = some (-0xab3) ∧ signedVal 16 ("0x1".toList.map ch) = none ∧
    BitVecValue.fromHexStr .debug ("-aB3".toList.map ch) = ok (.ok (encode (BitVec.ofInt 13 (-0xab3)))) ∧
    BitVecValue.fromHexStr .debug ("0x1".toList.map ch) = ok (.error .invalidDigit) := by decide +kernel

/-! ## C37 -/

/-- **C37, full statement**: on a well-formed numeral `from_str_radix` returns the value, if the magnitude is below
`2^w`, and `ExceedsWidth` otherwise. -/
def C37_statement : Prop := ∀ (m : Mode) (s : List Byte) (radix w : Nat) (z : Int), 2 ≤ radix → radix ≤ 36 → w < 2 ^ 32 →
  s.length < 2 ^ 32 → signedVal radix s = some z →
  (z.natAbs < 2 ^ w → ∃ r, BitVecValue.fromStrRadix m s radix w = ok (.ok r) ∧ Denotes r (BitVec.ofInt w z)) ∧
  (2 ^ w ≤ z.natAbs → BitVecValue.fromStrRadix m s radix w = ok (.error .exceedsWidth))

/-- **C37, proved part, widths 1 to 128**, every radix: a numeral that fits is converted to its value, one that
does not fit into the *words* of the result is rejected (for widths 64 and 128 that is the full claim), one that is not
well formed is rejected.
Missing: numerals of at least `2^w` that fit into the words, see `C37_overflow_accepted`. -/
theorem C37_from_str_radix_small_partial (m : Mode) {s : List Byte} {radix w : Nat} (hr : 2 ≤ radix) (hr' : radix ≤ 36)
    (h0 : 1 ≤ w) (hw : w ≤ 128) :
    (∀ z, signedVal radix s = some z → z.natAbs < 2 ^ w →
      ∃ r, BitVecValue.fromStrRadix m s radix w = ok (.ok r) ∧ Denotes r (BitVec.ofInt w z)) ∧
    (∀ z, signedVal radix s = some z → 2 ^ (64 * ((w + 63) / 64)) ≤ z.natAbs →
      BitVecValue.fromStrRadix m s radix w = ok (.error .exceedsWidth)) ∧
    (s ≠ [] → signedVal radix s = none → ∃ e, BitVecValue.fromStrRadix m s radix w = ok (.error e)) := by
  have hzl := zero_words_length w
  refine ⟨fun z hz hlt => ?_, fun z hz hge => ?_, fun hs hz => ?_⟩
  · obtain ⟨hs, hs', hu, _⟩ := signedVal_some hz
    refine fromStrRadix_denotes h0 (by omega) hz ((parseMagnitude_small (m := m) h0 hw hzl hr hr' hs').1 _ hu ?_)
      (Or.inr hlt)
    exact Nat.lt_of_lt_of_le hlt (Nat.pow_le_pow_right (by decide) (by omega))
  · obtain ⟨hs, hs', hu, _⟩ := signedVal_some hz
    exact fromStrRadix_eq_err (fromStrRadix_err h0 hs hs'
      ((parseMagnitude_small (m := m) h0 hw hzl hr hr' hs').2.1 _ hu (by rw [hzl]; exact hge)))
  · by_cases hs' : stripMinus s = []
    · exact ⟨_, fromStrRadix_eq_err (fromStrRadix_minus h0 hs hs')⟩
    · obtain ⟨e, he⟩ := (parseMagnitude_small (m := m) h0 hw hzl hr hr' hs').2.2 (signedVal_none hz)
      exact ⟨e, fromStrRadix_eq_err (fromStrRadix_err h0 hs hs' he)⟩

/-- **C37, proved part, binary, any width above 128**: a numeral with at most `w` digits is converted to its value; one
with more digits is rejected (even if the extra digits are zeros).
Missing: longer numerals with leading zeros that would fit. -/
theorem C37_from_str_radix_bin_partial (m : Mode) {s : List Byte} {w : Nat} (h0 : 128 < w) (hw : w < 2 ^ 32) {z : Int}
    (hz : signedVal 2 s = some z) :
    ((numeralDigits s).length ≤ w →
      ∃ r, BitVecValue.fromStrRadix m s 2 w = ok (.ok r) ∧ Denotes r (BitVec.ofInt w z)) ∧
    (w < (numeralDigits s).length → (numeralDigits s).length < 2 ^ 32 →
      BitVecValue.fromStrRadix m s 2 w = ok (.error .exceedsWidth)) := by
  obtain ⟨hs, hs', hu, _⟩ := signedVal_some hz
  constructor
  · intro hlen
    exact fromStrRadix_denotes (by omega) hw hz (magOk_wide2 h0 hw hs' hlen hu)
      (Or.inr (Nat.lt_of_lt_of_le (digits_natAbs_lt hz) (Nat.pow_le_pow_right (by decide) hlen)))
  · intro hlen hlt
    apply fromStrRadix_eq_err (o := (BitVecValue.zero w).words) (fromStrRadix_err (by omega) hs hs' ?_)
    have hp : stripMinus s ≠ [ch '+'] := by
      intro e; rw [e, unsignedVal_plus] at hu; cases hu
    rw [parseMagnitude_of_wide h0 (zero_words_length w), if_neg hp, if_pos rfl]
    unfold parseBase2
    dsimp only
    rw [show stripPlus (stripMinus s) = numeralDigits s from rfl,
      Nat.mod_eq_of_lt (show _ < U32 by show _ < 4294967296; omega), if_pos (by omega)]

/-- **C37, proved part, hexadecimal, any width above 128**: a numeral that fits into `w` bits and whose digits fit into
the words of the result is converted to its value.
Missing: longer numerals (panic, `C37_hex_too_long_panics`), values between `2^w` and the word boundary
(accepted, not canonical). -/
theorem C37_from_str_radix_hex_partial (m : Mode) {s : List Byte} {w : Nat} (h0 : 128 < w) (hw : w + 63 < 2 ^ 32) {z : Int}
    (hz : signedVal 16 s = some z) (hlen : 4 * (numeralDigits s).length ≤ 64 * ((w + 63) / 64)) (hfit : z.natAbs < 2 ^ w) :
    ∃ r, BitVecValue.fromStrRadix m s 16 w = ok (.ok r) ∧ Denotes r (BitVec.ofInt w z) := by
  obtain ⟨hs, hs', hu, _⟩ := signedVal_some hz
  refine fromStrRadix_denotes (by omega) (by omega) hz (magOk_wide16 h0 hs' ?_ ?_ hu) (Or.inr hfit)
  · show (4 * (numeralDigits s).length + 63) / 64 ≤ _; omega
  · show 4 * (numeralDigits s).length < _; omega

/-- A hexadecimal numeral with more digits than the words of the result can hold panics, even if the extra digits are
leading zeros. -/
theorem C37_hex_too_long_panics (m : Mode) {s : List Byte} {w : Nat} (h0 : 128 < w) {z : Int}
    (hz : signedVal 16 s = some z) (hlen : 64 * ((w + 63) / 64) < 4 * (numeralDigits s).length)
    (hu32 : 4 * (numeralDigits s).length < 2 ^ 32) : BitVecValue.fromStrRadix m s 16 w = panic .bounds := by
  obtain ⟨hs, hs', hu, _⟩ := signedVal_some hz
  apply fromStrRadix_eq_panic (fromStrRadix_panic (by omega) hs hs' ?_)
  have hp : stripMinus s ≠ [ch '+'] := by
    intro e; rw [e, unsignedVal_plus] at hu; cases hu
  rw [parseMagnitude_of_wide h0 (zero_words_length w), if_neg hp, if_neg (by decide), if_neg (by decide), if_pos rfl,
    show stripPlus (stripMinus s) = numeralDigits s from rfl]
  have hU : (U32 : Nat) = 4294967296 := rfl
  have hU' : (U64 : Nat) = 18446744073709551616 := rfl
  have hdc : divCeil ((numeralDigits s).length * 4) BITS = (4 * (numeralDigits s).length + 63) / 64 := by
    show ((numeralDigits s).length * 4 + 63) / 64 = _
    rw [Nat.mul_comm]
  have hv : digitsFrom (2 ^ 4) 0 (numeralDigits s) = some z.natAbs := by
    have : digitsVal 16 (numeralDigits s) = some z.natAbs := hu
    unfold digitsVal at this
    rwa [if_neg (numeralDigits_pos hz)] at this
  have hl := zero_words_length w
  unfold parseBase16
  dsimp only
  rw [Nat.mod_eq_of_lt (by omega), mulC_ok (by omega), ok_bind, hdc, subC_ok (by omega), ok_bind,
    parseLoop_panics (bits := 4) (pw := 16) hexDigitValue_eq (by omega) (by omega) (by omega) _ 0 0#64 0 _
      (by omega) (by omega) (fun _ => by omega) (fun h => by omega) hv]
  rfl

/-- Negative numerals are always reduced to the width: the result is canonical even if the magnitude does not fit. -/
theorem C37_negative_reduced (m : Mode) {s : List Byte} {radix w : Nat} (hr : 2 ≤ radix) (hr' : radix ≤ 36)
    (h0 : 1 ≤ w) (hw : w ≤ 128) {z : Int} (hz : signedVal radix s = some z) (hneg : s.head? = some (ch '-'))
    (hlt : z.natAbs < 2 ^ (64 * ((w + 63) / 64))) :
    ∃ r, BitVecValue.fromStrRadix m s radix w = ok (.ok r) ∧ Denotes r (BitVec.ofInt w z) := by
  obtain ⟨hs, hs', hu, _⟩ := signedVal_some hz
  have hzl := zero_words_length w
  exact fromStrRadix_denotes h0 (by omega) hz
    ((parseMagnitude_small (m := m) h0 hw hzl hr hr' hs').1 _ hu (by rw [hzl]; exact hlt)) (Or.inl hneg)

/-- What goes wrong: for widths 1 to 128, a numeral without `-` that exceeds the width but fits into the words is
accepted, and the result is not a legal value. -/
theorem C37_overflow_accepted (m : Mode) {s : List Byte} {radix w : Nat} (hr : 2 ≤ radix) (hr' : radix ≤ 36)
    (h0 : 1 ≤ w) (hw : w ≤ 128) {z : Int} (hz : signedVal radix s = some z) (hpos : s.head? ≠ some (ch '-'))
    (hge : 2 ^ w ≤ z.natAbs) (hlt : z.natAbs < 2 ^ (64 * ((w + 63) / 64))) :
    ∃ r, BitVecValue.fromStrRadix m s radix w = ok (.ok r) ∧ wordsVal r.words = z.natAbs ∧ ¬ Canonical r := by
  obtain ⟨hs, hs', hu, _⟩ := signedVal_some hz
  have hzl := zero_words_length w
  obtain ⟨o, h1, h2, h3⟩ := (parseMagnitude_small (m := m) h0 hw hzl hr hr' hs').1 _ hu (by rw [hzl]; exact hlt)
  refine ⟨⟨w, o⟩, fromStrRadix_eq_ok ?_, h3, fun hc => ?_⟩
  · rw [Strings.fromStrRadix_eq hs h0, if_neg hs', h1, ok_bind]
    simp only
    rw [if_neg hpos]
  · have := hc.val_lt
    simp only at this
    omega

/-- Decimal numerals wider than 128 bits always panic (`todo!()`). -/
theorem C37_dec_wide_panics (m : Mode) {s : List Byte} {w : Nat} (h0 : 128 < w) {z : Int}
    (hz : signedVal 10 s = some z) : BitVecValue.fromStrRadix m s 10 w = panic .todo := by
  obtain ⟨hs, hs', hu, _⟩ := signedVal_some hz
  apply fromStrRadix_eq_panic (fromStrRadix_panic (by omega) hs hs' ?_)
  have hp : stripMinus s ≠ [ch '+'] := by
    intro e; rw [e, unsignedVal_plus] at hu; cases hu
  rw [parseMagnitude_of_wide h0 (zero_words_length w), if_neg hp, if_neg (by decide), if_pos rfl]

/-- **C37 is false of the code**: `from_str_radix("ff", 16, 4)` succeeds. -/
theorem C37_refuted : ¬ C37_statement := fun h => by
  have h1 := (h .debug ("ff".toList.map ch) 16 4 255 (by decide) (by decide) (by decide) (by decide)
    (by decide +kernel)).2 (by decide)
  have h2 : BitVecValue.fromStrRadix .debug ("ff".toList.map ch) 16 4 = ok (.ok ⟨4, [255#64]⟩) := by decide +kernel
  rw [h2] at h1
  cases h1

example : signedVal 7 ("-51".toList.map ch) = some (-36) ∧ (-36 : Int).natAbs < 2 ^ 6 ∧
    BitVecValue.fromStrRadix .debug ("-51".toList.map ch) 7 6 = ok (.ok (encode 28#6)) ∧
    BitVecValue.fromStrRadix .debug ("18446744073709551616".toList.map ch) 10 60 = ok (.error .exceedsWidth) := by
  decide +kernel

example : BitVecValue.fromStrRadix .debug ("-10".toList.map ch) 2 129 = ok (.ok (encode (BitVec.ofInt 129 (-2)))) ∧
    BitVecValue.fromStrRadix .debug ("-Ff".toList.map ch) 16 129 = ok (.ok (encode (BitVec.ofInt 129 (-255)))) := by
  decide +kernel

/-! ## C38 -/

theorem signedVal_of_digitsVal {radix : Nat} {s : List Byte} {n : Nat} (h : digitsVal radix s = some n) :
    signedVal radix s = some (n : Int) ∧ s.head? ≠ some (ch '-') ∧ s.head? ≠ some (ch '+') := by
  have h1 : ∀ c, digitOf radix c = none → s.head? ≠ some c := by
    intro c hc e
    match s, e with
    | c' :: cs, e =>
      simp at e
      subst e
      simp [digitsVal, digitsFrom, hc] at h
  have hm := h1 _ (digitOf_minus radix)
  have hp := h1 _ (digitOf_plus radix)
  refine ⟨?_, hm, hp⟩
  unfold signedVal unsignedVal stripPlus
  rw [if_neg hm, if_neg hp, h]
  rfl

theorem numeralWidth_of_digitsVal {radix bits : Nat} {s : List Byte} {n : Nat} (h : digitsVal radix s = some n) :
    numeralWidth bits s = bits * s.length := by
  obtain ⟨_, hm, hp⟩ := signedVal_of_digitsVal h
  unfold numeralWidth
  rw [if_neg hm, if_neg hp]

theorem denotes_cast {v : BitVecValue} {w w' : Nat} {x : BitVec w} (h : Denotes v x) (e : w = w') (y : BitVec w')
    (hy : y.toNat = x.toNat) : Denotes v y := by
  subst e
  exact ⟨h.width_lt, h.width_eq, h.length_eq, by rw [h.val_eq, hy]⟩

/-- **C38** parsing the printed bit string gives back the identical value. -/
theorem C38_bit_str_round_trip (m : Mode) {w : Nat} {a : BitVecValue} {x : BitVec w} (ha : Denotes a x) :
    ∃ s, BitVecValue.toBitStr a = ok s ∧ BitVecValue.fromBitStr m s = ok (.ok a) := by
  by_cases h0 : w = 0
  · subst h0
    refine ⟨[], ?_, ?_⟩
    · rw [C30_to_bit_str ha]; rfl
    · obtain ⟨r, h1, h2⟩ := (C35_from_bit_str m (s := []) (by decide)).1 rfl
      rw [BitVec.eq_nil x] at ha
      rw [h1, h2.repr_unique (v := a) (by simpa using ha)]
  · obtain ⟨s, h1, h2, h3⟩ := C30_to_bit_str_value (by omega) ha
    obtain ⟨r, h4, h5⟩ := (C35_from_bit_str m (s := s)
      (by rw [numeralWidth_of_digitsVal h3, h2, Nat.one_mul]; exact ha.width_lt)).2.1 _ (signedVal_of_digitsVal h3).1
    refine ⟨s, h1, ?_⟩
    have h6 : Denotes r x := denotes_cast h5 (by rw [numeralWidth_of_digitsVal h3, h2, Nat.one_mul]) x
      (by rw [BitVec.ofInt_natCast, BitVec.toNat_ofNat, numeralWidth_of_digitsVal h3, h2, Nat.one_mul,
        Nat.mod_eq_of_lt x.isLt])
    rw [h4, h6.repr_unique ha]

/-- **C38** parsing the printed hexadecimal string gives the value zero-extended to a multiple of 4 bits; in particular
the identical value if `w` is a multiple of 4. -/
theorem C38_hex_str_round_trip (m m' : Mode) {w : Nat} (h0 : 0 < w) {a : BitVecValue} {x : BitVec w} (ha : Denotes a x)
    (hw : w + 4 ≤ 2 ^ 32) :
    ∃ s r, BitVecValue.toHexStr m a = ok s ∧ BitVecValue.fromHexStr m' s = ok (.ok r) ∧
      Denotes r (x.setWidth (4 * ((w + 3) / 4))) ∧ (w % 4 = 0 → r = a) := by
  obtain ⟨s, h1, h2, _, h3⟩ := C31_to_hex_str m h0 ha
  obtain ⟨r, h4, h5⟩ := (C36_from_hex_str m' (s := s)
    (by rw [numeralWidth_of_digitsVal h3, h2]; omega)).2.1 _ (signedVal_of_digitsVal h3).1
  have hle : w ≤ 4 * ((w + 3) / 4) := by omega
  have hlt : x.toNat < 2 ^ (4 * ((w + 3) / 4)) := Nat.lt_of_lt_of_le x.isLt (Nat.pow_le_pow_right (by decide) hle)
  have h6 : Denotes r (x.setWidth (4 * ((w + 3) / 4))) :=
    denotes_cast h5 (by rw [numeralWidth_of_digitsVal h3, h2]) _
      (by rw [BitVec.ofInt_natCast, BitVec.toNat_ofNat, numeralWidth_of_digitsVal h3, h2, BitVec.toNat_setWidth])
  refine ⟨s, r, h1, h4, h6, fun hmod => ?_⟩
  exact (denotes_cast h6 (by omega) x (by rw [BitVec.toNat_setWidth, Nat.mod_eq_of_lt hlt])).repr_unique ha

/-- **C38** parsing the printed decimal string gives back the identical value, for widths 1 to 128. -/
theorem C38_dec_str_round_trip (m m' : Mode) {w : Nat} (h0 : 1 ≤ w) (hw : w ≤ 128) {a : BitVecValue} {x : BitVec w}
    (ha : Denotes a x) :
    ∃ s, BitVecValue.toDecStr m a = ok s ∧ BitVecValue.fromStrRadix m' s 10 w = ok (.ok a) := by
  have hx : x.toNat < 2 ^ 128 := Nat.lt_of_lt_of_le x.isLt (Nat.pow_le_pow_right (by decide) hw)
  obtain ⟨s, h1, h2, _⟩ := C32_to_dec_str_partial m ha hx (Or.inr (by omega))
  obtain ⟨r, h4, h5⟩ := (C37_from_str_radix_small_partial m' (s := s) (radix := 10) (by decide) (by decide) h0 hw).1 _
    (signedVal_of_digitsVal h2).1 (by simpa using x.isLt)
  refine ⟨s, h1, ?_⟩
  rw [BitVec.ofInt_natCast, BitVec.ofNat_toNat, BitVec.setWidth_eq] at h5
  rw [h4, h5.repr_unique ha]

example : Denotes (encode 0x1f3#9) 0x1f3#9 ∧ BitVecValue.toBitStr (encode 0x1f3#9) = ok ("111110011".toList.map ch) ∧
    BitVecValue.fromBitStr .debug ("111110011".toList.map ch) = ok (.ok (encode 0x1f3#9)) ∧
    BitVecValue.fromHexStr .debug ("1f3".toList.map ch) = ok (.ok (encode 0x1f3#12)) :=
  ⟨encode_denotes _ (by decide), by decide +kernel⟩

/-! ## C39 -/

/-- **C39, full statement**: a successful `assign_from_str_radix` of a non-empty string leaves exactly the value that
`from_str_radix` constructs. -/
def C39_statement : Prop := ∀ (m : Mode) (v r : BitVecValue) (s : List Byte) (radix : Nat), Canonical v → s ≠ [] →
  BitVecValue.assignFromStrRadix m v s radix = ok (r, .ok ()) →
  BitVecValue.fromStrRadix m s radix v.width = ok (.ok r)

/-- The destination of a small parse only matters through its number of words. -/
theorem parseMagnitude_indep {m : Mode} {radix w : Nat} {o1 o2 r : List Word} {s : List Byte}
    (hl : o1.length = o2.length) (hl' : o1.length ≤ 2) (h0 : 0 < o1.length)
    (h : parseMagnitude m s radix o1 w = ok (r, .ok ())) : parseMagnitude m s radix o2 w = ok (r, .ok ()) := by
  match o1, o2, hl with
  | [_], [_], _ =>
    unfold parseMagnitude at h ⊢
    cases hd : debugAssert m (decide (w ≤ 64)) with
    | panic p => rw [hd] at h; cases h
    | ok u =>
      rw [hd] at h
      rw [ok_bind] at h ⊢
      cases hp : stdFromStrRadix U64 radix s with
      | panic p => rw [hp] at h; cases h
      | ok e =>
        rw [hp] at h
        rw [ok_bind] at h ⊢
        cases e with
        | ok n => exact h
        | error e => cases h
  | [_, _], [_, _], _ =>
    unfold parseMagnitude at h ⊢
    cases hd : debugAssert m (decide (w ≤ 128)) with
    | panic p => rw [hd] at h; cases h
    | ok u =>
      rw [hd] at h
      rw [ok_bind] at h ⊢
      cases hp : stdFromStrRadix U128 radix s with
      | panic p => rw [hp] at h; cases h
      | ok e =>
        rw [hp] at h
        rw [ok_bind] at h ⊢
        cases e with
        | ok n => exact h
        | error e => cases h

theorem assignFromStrRadix_of_magnitude {m : Mode} {v r : BitVecValue} {s : List Byte} {radix : Nat} (hs : s ≠ [])
    (hw : 1 ≤ v.width)
    (hpm : ∀ o, parseMagnitude m (stripMinus s) radix v.words v.width = ok (o, .ok ()) →
      parseMagnitude m (stripMinus s) radix (BitVecValue.zero v.width).words v.width = ok (o, .ok ()))
    (h : BitVecValue.assignFromStrRadix m v s radix = ok (r, .ok ())) :
    BitVecValue.fromStrRadix m s radix v.width = ok (.ok r) := by
  unfold BitVecValue.assignFromStrRadix at h
  rw [Strings.fromStrRadix_eq hs hw] at h
  by_cases hs' : stripMinus s = []
  · rw [if_pos hs'] at h; cases h
  · rw [if_neg hs'] at h
    cases hp : parseMagnitude m (stripMinus s) radix v.words v.width with
    | panic p => rw [hp] at h; cases h
    | ok q =>
      obtain ⟨o, e⟩ := q
      rw [hp, ok_bind] at h
      cases e with
      | error e => cases h
      | ok u =>
        have hz := hpm o hp
        simp only at h
        by_cases hn : s.head? = some (ch '-')
        · rw [if_pos hn] at h
          cases hneg : Arith.negateInPlace m o v.width with
          | panic p => rw [hneg] at h; cases h
          | ok o' =>
            rw [hneg] at h
            cases h
            apply fromStrRadix_eq_ok
            rw [Strings.fromStrRadix_eq hs hw, if_neg hs', hz, ok_bind]
            simp only
            rw [if_pos hn, hneg, ok_bind]
        · rw [if_neg hn] at h
          cases h
          apply fromStrRadix_eq_ok
          rw [Strings.fromStrRadix_eq hs hw, if_neg hs', hz, ok_bind]
          simp only
          rw [if_neg hn]

/-- **C39, proved part 1**: independence of the previous contents for all widths up to 128, all strings, all radixes. -/
theorem C39_assign_from_str_small_partial (m : Mode) {v r : BitVecValue} {s : List Byte} {radix : Nat} (hv : Canonical v)
    (hw : v.width ≤ 128) (hs : s ≠ []) (h : BitVecValue.assignFromStrRadix m v s radix = ok (r, .ok ())) :
    BitVecValue.fromStrRadix m s radix v.width = ok (.ok r) := by
  have hl := hv.length_eq
  by_cases h0 : v.width = 0
  · have : v = BitVecValue.zero v.width := by
      obtain ⟨w, ws⟩ := v
      simp only at h0 hl
      subst h0
      have : ws = [] := List.length_eq_zero_iff.mp (by omega)
      subst this
      rfl
    unfold BitVecValue.fromStrRadix
    rw [← this, h, ok_bind]
  · exact assignFromStrRadix_of_magnitude hs (by omega)
      (fun o ho => parseMagnitude_indep (by rw [zero_words_length, hl]) (by omega) (by omega) ho) h

theorem digitsVal_of_ok2 {m : Mode} {w : Nat} {o o' : List Word} {s : List Byte} (hw : 128 < w) (hw' : w < 2 ^ 32)
    (hl : o.length = (w + 63) / 64) (hs : s ≠ []) (hlen : (stripPlus s).length < 2 ^ 32)
    (h : parseMagnitude m s 2 o w = ok (o', .ok ())) : (stripPlus s).length ≤ w ∧ ∃ n, unsignedVal 2 s = some n := by
  by_cases hp : s = [ch '+']
  · rw [parseMagnitude_of_wide hw hl, if_pos hp] at h; cases h
  · have h1 : (stripPlus s).length ≤ w := by
      apply Decidable.byContradiction
      intro hc
      rw [parseMagnitude_of_wide hw hl, if_neg hp, if_pos rfl] at h
      unfold parseBase2 at h
      dsimp only at h
      rw [Nat.mod_eq_of_lt (show _ < U32 by show _ < 4294967296; omega), if_pos (by omega)] at h
      cases h
    refine ⟨h1, ?_⟩
    cases hu : unsignedVal 2 s with
    | some n => exact ⟨n, rfl⟩
    | none =>
      obtain ⟨o2, e, he⟩ := (parseMagnitude_wide2 (m := m) hw hw' hl hs h1).2 hu
      rw [he] at h
      cases h

/-- **C39, proved part 2**: independence for binary strings of any width above 128, if the digits reach into the top word.
Missing: shorter strings, see `C39_stale_words`. -/
theorem C39_assign_from_str_bin_partial (m : Mode) {v r : BitVecValue} {s : List Byte} (hv : Canonical v)
    (hw : 128 < v.width) (hs : s ≠ []) (hd : (numeralDigits s).length < 2 ^ 32)
    (hfull : 64 * (v.words.length - 1) < (numeralDigits s).length)
    (h : BitVecValue.assignFromStrRadix m v s 2 = ok (r, .ok ())) :
    BitVecValue.fromStrRadix m s 2 v.width = ok (.ok r) := by
  have hl := hv.length_eq
  have hlt := hv.width_lt
  refine assignFromStrRadix_of_magnitude hs (by omega) (fun o ho => ?_) h
  have hs' : stripMinus s ≠ [] := by
    intro e
    have : numeralDigits s = [] := by unfold numeralDigits; rw [e]; rfl
    rw [this] at hfull; simp at hfull
  obtain ⟨h1, n, hn⟩ := digitsVal_of_ok2 hw hlt hl hs' hd ho
  have hk : ((stripPlus (stripMinus s)).length + 63) / 64 = v.words.length := by
    have : numeralDigits s = stripPlus (stripMinus s) := rfl
    rw [← this] at h1 ⊢
    omega
  obtain ⟨o1, a1, a2, a3, _⟩ := (parseMagnitude_wide2 (m := m) hw hlt hl hs' h1).1 n hn
  obtain ⟨o2, b1, b2, b3, _⟩ := (parseMagnitude_wide2 (m := m) hw hlt (zero_words_length v.width) hs' h1).1 n hn
  rw [a1] at ho
  cases ho
  rw [b1]
  have : o2 = o := by
    apply wordsVal_inj (by rw [a2, b2, hl, zero_words_length])
    rw [hk, List.take_of_length_le (by omega)] at a3
    rw [hk, List.take_of_length_le (by rw [b2, zero_words_length]; omega)] at b3
    rw [a3, b3]
  rw [this]

theorem digitsVal_of_ok16 {m : Mode} {w : Nat} {o o' : List Word} {s : List Byte} (hw : 128 < w)
    (hl : o.length = (w + 63) / 64) (hs : s ≠ []) (hlen : 4 * (stripPlus s).length ≤ 64 * o.length)
    (hu32 : 4 * (stripPlus s).length < 2 ^ 32)
    (h : parseMagnitude m s 16 o w = ok (o', .ok ())) : ∃ n, unsignedVal 16 s = some n := by
  cases hu : unsignedVal 16 s with
  | some n => exact ⟨n, rfl⟩
  | none =>
    obtain ⟨o2, e, he⟩ := (parseMagnitude_wide16 (m := m) hw hl hs (by omega) hu32).2 hu
    rw [he] at h
    cases h

/-- **C39, proved part 3**: independence for hexadecimal strings of any width above 128, if the digits exactly reach into
the top word. -/
theorem C39_assign_from_str_hex_partial (m : Mode) {v r : BitVecValue} {s : List Byte} (hv : Canonical v)
    (hw : 128 < v.width) (hs : s ≠ []) (hd : 4 * (numeralDigits s).length < 2 ^ 32)
    (hfull : 64 * (v.words.length - 1) < 4 * (numeralDigits s).length)
    (hfull' : 4 * (numeralDigits s).length ≤ 64 * v.words.length)
    (h : BitVecValue.assignFromStrRadix m v s 16 = ok (r, .ok ())) :
    BitVecValue.fromStrRadix m s 16 v.width = ok (.ok r) := by
  have hl := hv.length_eq
  have hlt := hv.width_lt
  refine assignFromStrRadix_of_magnitude hs (by omega) (fun o ho => ?_) h
  have hs' : stripMinus s ≠ [] := by
    intro e
    have : numeralDigits s = [] := by unfold numeralDigits; rw [e]; rfl
    rw [this] at hfull; simp at hfull
  have e : numeralDigits s = stripPlus (stripMinus s) := rfl
  rw [e] at hd hfull hfull'
  obtain ⟨n, hn⟩ := digitsVal_of_ok16 hw hl hs' hfull' hd ho
  have hk : (4 * (stripPlus (stripMinus s)).length + 63) / 64 = v.words.length := by omega
  have hzl := zero_words_length v.width
  obtain ⟨o1, a1, a2, a3, _⟩ := (parseMagnitude_wide16 (m := m) hw hl hs' (by omega) hd).1 n hn
  obtain ⟨o2, b1, b2, b3, _⟩ := (parseMagnitude_wide16 (m := m) hw hzl hs' (by omega) hd).1 n hn
  rw [a1] at ho
  cases ho
  rw [b1]
  have : o2 = o := by
    apply wordsVal_inj (by rw [a2, b2, hl, zero_words_length])
    rw [hk, List.take_of_length_le (by omega)] at a3
    rw [hk, List.take_of_length_le (by rw [b2, zero_words_length]; omega)] at b3
    rw [a3, b3]
  rw [this]

/-- What goes wrong: a shorter binary numeral without sign only replaces the low words; the high words keep their
previous contents. -/
theorem C39_stale_words (m : Mode) {v : BitVecValue} {s : List Byte} {n : Nat} (hv : Canonical v) (hw : 128 < v.width)
    (hd : s.length ≤ v.width) (hn : digitsVal 2 s = some n) :
    ∃ r, BitVecValue.assignFromStrRadix m v s 2 = ok (r, .ok ()) ∧
      wordsVal (r.words.take ((s.length + 63) / 64)) = n ∧
      r.words.drop ((s.length + 63) / 64) = v.words.drop ((s.length + 63) / 64) := by
  obtain ⟨h1, h2, h3⟩ := signedVal_of_digitsVal hn
  have hs := (digitsVal_lt hn).1
  have hm : stripMinus s = s := by unfold stripMinus; rw [if_neg h2]
  have hp : stripPlus s = s := by unfold stripPlus; rw [if_neg h3]
  obtain ⟨o, g1, g2, g3, g4⟩ := (parseMagnitude_wide2 (m := m) hw hv.width_lt hv.length_eq hs (by rw [hp]; exact hd)).1 n
    (by unfold unsignedVal; rw [hp, hn])
  rw [hp] at g3 g4
  refine ⟨{ v with words := o }, assignFromStrRadix_eq ?_, g3, g4⟩
  rw [Strings.fromStrRadix_eq hs (by omega), hm, if_neg hs, g1, ok_bind]
  simp only
  rw [if_neg h2]

/-- **C39 is false of the code**: assigning `"1"` to an all-ones value of width 129 leaves the upper words set. -/
theorem C39_refuted : ¬ C39_statement := fun h => by
  have h1 := h .debug (encode (BitVec.allOnes 129)) ⟨129, [1#64, BitVec.allOnes 64, 1#64]⟩ [ch '1'] 2
    (encode_denotes _ (by decide)).canonical (by decide) (by decide +kernel)
  have h2 : BitVecValue.fromStrRadix .debug [ch '1'] 2 129 = ok (.ok ⟨129, [1#64, 0#64, 0#64]⟩) := by decide +kernel
  rw [show (encode (BitVec.allOnes 129)).width = 129 from rfl, h2] at h1
  revert h1
  decide

example : Canonical (encode 0xff#8) ∧
    BitVecValue.assignFromStrRadix .debug (encode 0xff#8) ("12".toList.map ch) 10 = ok (encode 12#8, .ok ()) :=
  ⟨(encode_denotes _ (by decide)).canonical, by decide +kernel⟩

end Baa
