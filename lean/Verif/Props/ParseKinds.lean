import Verif.Props.ParseTotal

/-!
# Properties C35 and C36: which error, and strings of any length

`from_bit_str` and `from_hex_str` choose the width themselves, so the only error for a string that is no numeral is `InvalidDigit`, with one
exception. Strings whose width does not fit into 32 bits are read at the width modulo `2^32`.
-/

namespace Baa
open Res Strings

/-- At the width that is chosen for the string, every malformed string is an invalid digit, except a lone plus sign. -/
theorem parseOutcome_malformed {radix bits : Nat} (h : radix = 2 ∧ bits = 1 ∨ radix = 16 ∧ bits = 4) {s : List Byte} (hs : s ≠ [])
    (hz : signedVal radix s = none) :
    parseOutcome radix (numeralWidth bits s) s = if s = [ch '+'] then .exceeds else .invalid := by
  by_cases hp : s = [ch '+']
  · subst hp
    rcases h with ⟨rfl, rfl⟩ | ⟨rfl, rfl⟩ <;> decide +kernel
  have hb : 1 ≤ bits := by omega
  obtain ⟨hdl, hpos⟩ := numeralDigits_length_le hb s
  have h1 := hpos hs hp
  have hu := signedVal_none hz
  generalize numeralWidth bits s = W at *
  have hrb : radix = 2 ^ bits := by rcases h with ⟨h1, h2⟩ | ⟨h1, h2⟩ <;> (subst h1 h2; rfl)
  unfold parseOutcome
  dsimp only
  rw [if_neg hs, if_neg (by omega), if_neg hp]
  by_cases hm : stripMinus s = []
  · rw [if_pos hm]
  rw [if_neg hm]
  by_cases hd : numeralDigits s = []
  · rw [if_pos hd, if_pos hd]
    split
    · rw [if_neg (by omega)]
    · rfl
  rw [if_neg hd, if_neg hd]
  have hnone : digitsFrom radix 0 (numeralDigits s) = none := by
    have : digitsVal radix (numeralDigits s) = none := hu
    unfold digitsVal at this
    rwa [if_neg hd] at this
  obtain ⟨p, rest, hf⟩ := failsAfter_of_none hnone
  obtain ⟨k1, k2, k3⟩ := readDigits_fails hf
  obtain ⟨pre, c, post, e, f1, f2, -⟩ := hf
  have hlt : p < 2 ^ (64 * ((W + 63) / 64)) := by
    have hle : bits * pre.length ≤ bits * (numeralDigits s).length :=
      Nat.mul_le_mul_left _ (by rw [e, List.length_append]; exact Nat.le_add_right _ _)
    have := digitsFrom_lt f1
    rw [hrb, ← Nat.pow_mul] at this
    exact Nat.lt_of_lt_of_le this (Nat.pow_le_pow_right (by decide) (by omega))
  rw [k1, if_neg k3]
  split
  · rw [if_neg (by omega), if_neg (by omega)]
  · rcases h with ⟨rfl, rfl⟩ | ⟨rfl, rfl⟩
    · rw [if_pos rfl, if_neg (by omega)]
    · rw [if_neg (by decide), if_pos rfl, if_pos (by omega)]

/-- **C35**, the error: a string that is no binary numeral is an invalid digit, except that a lone `+` exceeds the width. -/
theorem C35_error (m : Mode) {s : List Byte} (hlen : numeralWidth 1 s < 2 ^ 32) (hs : s ≠ []) (hz : signedVal 2 s = none) :
    BitVecValue.fromBitStr m s = ok (.error (if s = [ch '+'] then .exceedsWidth else .invalidDigit)) := by
  have hl := (numeralDigits_length_le (bits := 1) (by decide) s).1
  have h := C37_total m 2 _ s hlen (fun _ _ => by omega) (fun _ h => by cases h)
  rw [parseOutcome_malformed (Or.inl ⟨rfl, rfl⟩) hs hz] at h
  unfold BitVecValue.fromBitStr
  rw [determineWidth_eq (bits := 1) (Or.inl ⟨rfl, rfl⟩) hlen, ok_bind]
  by_cases hp : s = [ch '+']
  · rw [if_pos hp] at h ⊢
    exact h
  · rw [if_neg hp] at h ⊢
    exact h

/-- **C36**, the error: a string that is no hexadecimal numeral is an invalid digit, except that a lone `+` exceeds the width. -/
theorem C36_error (m : Mode) {s : List Byte} (hlen : numeralWidth 4 s < 2 ^ 32) (hs : s ≠ []) (hz : signedVal 16 s = none) :
    BitVecValue.fromHexStr m s = ok (.error (if s = [ch '+'] then .exceedsWidth else .invalidDigit)) := by
  have hl := (numeralDigits_length_le (bits := 4) (by decide) s).1
  have h := C37_total m 16 _ s hlen (fun _ h => by cases h) (fun _ _ => by omega)
  rw [parseOutcome_malformed (Or.inr ⟨rfl, rfl⟩) hs hz] at h
  unfold BitVecValue.fromHexStr
  rw [determineWidth_eq (bits := 4) (Or.inr ⟨rfl, rfl⟩) hlen, ok_bind]
  by_cases hp : s = [ch '+']
  · rw [if_pos hp] at h ⊢
    exact h
  · rw [if_neg hp] at h ⊢
    exact h

/-- The width that is chosen for a string of any length, if one is chosen. -/
theorem determineWidth_mod {m : Mode} {s : List Byte} {radix bits w : Nat} (h : radix = 2 ∧ bits = 1 ∨ radix = 16 ∧ bits = 4)
    (hw : determineWidth m s radix = ok w) : w = numeralWidth bits s % 2 ^ 32 := by
  have hU : (U32 : Nat) = 4294967296 := rfl
  have hmul : ∀ {a c : Nat}, mulC m U32 a 4 = ok c → c = 4 * a % U32 := by
    intro a c hc
    unfold mulC at hc
    split at hc
    · cases hc; rw [Nat.mod_eq_of_lt (by omega), Nat.mul_comm]
    · cases m with
      | debug => cases hc
      | release => cases hc; rw [Nat.mul_comm]
  have hadd : ∀ {a b c : Nat}, addC m U32 a b = ok c → c = (a + b) % U32 := by
    intro a b c hc
    unfold addC at hc
    split at hc
    · cases hc; rw [Nat.mod_eq_of_lt (by omega)]
    · cases m with
      | debug => cases hc
      | release => cases hc; rfl
  have key : ∀ n k, ((if radix = 2 then ok (n % U32) else if radix = 16 then mulC m U32 (n % U32) 4
      else panic .todo) >>= fun b => addC m U32 b k) = ok w → w = (bits * n + k) % 2 ^ 32 := by
    intro n k hn
    rcases h with ⟨rfl, rfl⟩ | ⟨rfl, rfl⟩
    · rw [if_pos rfl, ok_bind] at hn
      rw [hadd hn, hU]
      omega
    · rw [if_neg (by decide), if_pos rfl] at hn
      obtain ⟨b, hb, hn⟩ := of_bind_ok hn
      rw [hadd hn, hmul hb, hU]
      omega
  unfold determineWidth at hw
  rw [debugAssert_of (by rcases h with ⟨h1, _⟩ | ⟨h1, _⟩ <;> simp [h1]), ok_bind] at hw
  dsimp only at hw
  have h3 : ¬ ch '+' = ch '-' := by decide
  have h4 : ¬ (some (ch '+') == some (ch '-')) = true := by decide
  have h0 : (0 : Nat) = 0 % U32 := rfl
  have h11 : (1 : Nat) = 1 % U32 := rfl
  match s, hw with
  | [], hw => exact key 0 0 hw
  | [c], hw =>
    by_cases h1 : c = ch '-'
    · subst h1
      exact key 0 1 hw
    · by_cases h2 : c = ch '+'
      · subst h2
        exact key 0 0 hw
      · have e : (some c == some (ch '-')) = false := by simpa using h1
        rw [List.head?_cons, e] at hw
        have hc : ¬ (c = ch '+' ∨ c = ch '-') := by simp [h1, h2]
        simp only [if_neg hc] at hw
        have := key 1 0 hw
        simpa [numeralWidth, h1, h2] using this
  | c :: d :: l, hw =>
    by_cases h1 : c = ch '-'
    · subst h1
      exact key (d :: l).length 1 hw
    · by_cases h2 : c = ch '+'
      · subst h2
        exact key (d :: l).length 0 hw
      · have e : (some c == some (ch '-')) = false := by simpa using h1
        rw [List.head?_cons, e] at hw
        have hc : ¬ (c = ch '+' ∨ c = ch '-') := by simp [h1, h2]
        simp only [if_neg hc] at hw
        have := key ((d :: l).length + 1) 0 hw
        simpa [numeralWidth, h1, h2] using this

/-- **C35**, strings of any length: whatever is accepted has the width of the string modulo `2^32` and is stored according to `parseOutcome`. -/
theorem C35_accepted (m : Mode) {s : List Byte} (hlen : s.length < 2 ^ 63) {r : BitVecValue} (h : BitVecValue.fromBitStr m s = ok (.ok r)) :
    r.width = numeralWidth 1 s % 2 ^ 32 ∧ r.words.length = (r.width + 63) / 64 ∧ parseOutcome 2 r.width s = .stores (wordsVal r.words) := by
  obtain ⟨w, hw, h⟩ := of_bind_ok h
  have e := determineWidth_mod (Or.inl ⟨rfl, rfl⟩) hw
  obtain ⟨k1, k2, k3⟩ := C37_accepted m (by rw [e]; exact Nat.mod_lt _ (by decide)) hlen h
  rw [k2]
  exact ⟨e, k3, k1⟩

/-- **C36**, strings of any length. -/
theorem C36_accepted (m : Mode) {s : List Byte} (hlen : s.length < 2 ^ 63) {r : BitVecValue} (h : BitVecValue.fromHexStr m s = ok (.ok r)) :
    r.width = numeralWidth 4 s % 2 ^ 32 ∧ r.words.length = (r.width + 63) / 64 ∧ parseOutcome 16 r.width s = .stores (wordsVal r.words) := by
  obtain ⟨w, hw, h⟩ := of_bind_ok h
  have e := determineWidth_mod (Or.inr ⟨rfl, rfl⟩) hw
  obtain ⟨k1, k2, k3⟩ := C37_accepted m (by rw [e]; exact Nat.mod_lt _ (by decide)) hlen h
  rw [k2]
  exact ⟨e, k3, k1⟩

/-! ## Examples -/

example : signedVal 2 ("-12".toList.map ch) = none ∧ numeralWidth 1 ("-12".toList.map ch) < 2 ^ 32 ∧
    BitVecValue.fromBitStr .debug ("-12".toList.map ch) = ok (.error .invalidDigit) ∧
    BitVecValue.fromBitStr .debug ("+".toList.map ch) = ok (.error .exceedsWidth) ∧
    BitVecValue.fromHexStr .debug ("-".toList.map ch) = ok (.error .invalidDigit) := by decide +kernel

example : BitVecValue.fromHexStr .debug ("-aB3".toList.map ch) = ok (.ok (encode (BitVec.ofInt 13 (-0xab3)))) ∧
    parseOutcome 16 13 ("-aB3".toList.map ch) = .stores (wordsVal (encode (BitVec.ofInt 13 (-0xab3))).words) := by decide +kernel

end Baa
