import Verif.Props.Parse
import Verif.Proofs.ArrayInv
import Verif.Spec.Text

/-!
# Parsing, remaining cases, and C74: failed in-place parses

The first part describes what the parser does where C37 and C39 fail, for all inputs. The second part is C74: what a failed
`assign_from_str_radix` leaves in the destination.
-/

namespace Baa
open Res Strings

/-! ## C37, remaining cases -/

/-- **C37, exact**: the empty string is read as 0, for every width and radix. -/
theorem C37_empty_is_zero (m : Mode) (radix w : Nat) :
    BitVecValue.fromStrRadix m [] radix w = ok (.ok (BitVecValue.zero w)) := rfl

/-- **C37, exact**: at width 0 only `0` and `-0` are accepted, everything else (well formed or not) exceeds the width. -/
theorem C37_width_zero (m : Mode) (radix : Nat) {s : List Byte} (hs : s ≠ []) :
    BitVecValue.fromStrRadix m s radix 0 =
      ok (if stripMinus s = [ch '0'] then .ok (BitVecValue.zero 0) else .error .exceedsWidth) := by
  have e : (if s.head? == some (ch '-') then s.drop 1 else s) = stripMinus s := by
    unfold stripMinus
    simp only [beq_iff_eq, List.drop_one]
  by_cases h : stripMinus s = [ch '0']
  · rw [if_pos h]
    apply fromStrRadix_eq_ok
    unfold Strings.fromStrRadix
    rw [if_neg hs]
    dsimp only
    rw [e, if_pos rfl, if_pos h]
    rfl
  · rw [if_neg h]
    apply fromStrRadix_eq_err
    unfold Strings.fromStrRadix
    rw [if_neg hs]
    dsimp only
    rw [e, if_pos rfl, if_neg h]

/-- **C37, exact**: a sign without digits is rejected, for every radix and width. Between 1 and 128 bits the standard library
does this, above 128 bits the code itself. -/
theorem C37_sign_only (m : Mode) {radix w : Nat} (h0 : 128 < w) (s : List Byte) (hs : s ≠ [])
    (hd : numeralDigits s = []) : BitVecValue.fromStrRadix m s radix w = ok (.error .invalidDigit) := by
  by_cases hs' : stripMinus s = []
  · exact fromStrRadix_eq_err (fromStrRadix_minus (by omega) hs hs')
  · have hp : stripMinus s = [ch '+'] := by
      apply Decidable.byContradiction
      intro hp
      exact stripPlus_ne_nil hs' hp hd
    apply fromStrRadix_eq_err (fromStrRadix_err (by omega) hs hs' (o := (BitVecValue.zero w).words) ?_)
    rw [parseMagnitude_of_wide h0 (zero_words_length w), if_pos hp]

/-- **C37, exact**: above 128 bits every radix other than 2 and 16 panics (`todo!()`), for every string with at least one
character after the sign, well formed or not. -/
theorem C37_unsupported_radix_panics (m : Mode) {radix w : Nat} (h0 : 128 < w) (h2 : radix ≠ 2) (h16 : radix ≠ 16)
    {s : List Byte} (hd : numeralDigits s ≠ []) : BitVecValue.fromStrRadix m s radix w = panic .todo := by
  have hs' : stripMinus s ≠ [] := by
    intro e; exact hd (by unfold numeralDigits; rw [e]; rfl)
  have hs : s ≠ [] := by
    intro e; exact hs' (by rw [e]; rfl)
  have hp : stripMinus s ≠ [ch '+'] := by
    intro e; exact hd (by unfold numeralDigits; rw [e]; simp [stripPlus])
  apply fromStrRadix_eq_panic (fromStrRadix_panic (by omega) hs hs' ?_)
  rw [parseMagnitude_of_wide h0 (zero_words_length w), if_neg hp, if_neg h2]
  by_cases h10 : radix = 10
  · rw [if_pos h10]
  · rw [if_neg h10, if_neg h16]

/-- **C37, exact, binary above 128 bits**: a string with more than `w` characters after the sign exceeds the width (whether
these are digits or not), any other malformed string is an invalid digit. -/
theorem C37_bin_malformed (m : Mode) {w : Nat} (h0 : 128 < w) (hw : w < 2 ^ 32) {s : List Byte} (hs : s ≠ [])
    (hz : signedVal 2 s = none) (hlt : (numeralDigits s).length < 2 ^ 32) :
    BitVecValue.fromStrRadix m s 2 w =
      ok (.error (if w < (numeralDigits s).length then .exceedsWidth else .invalidDigit)) := by
  by_cases hd : numeralDigits s = []
  · rw [C37_sign_only m h0 s hs hd, hd, if_neg (by simp)]
  · have hs' : stripMinus s ≠ [] := by
      intro e; exact hd (by unfold numeralDigits; rw [e]; rfl)
    have hp : stripMinus s ≠ [ch '+'] := by
      intro e; exact hd (by unfold numeralDigits; rw [e]; simp [stripPlus])
    by_cases hlen : w < (numeralDigits s).length
    · rw [if_pos hlen]
      apply fromStrRadix_eq_err (o := (BitVecValue.zero w).words) (fromStrRadix_err (by omega) hs hs' ?_)
      rw [parseMagnitude_of_wide h0 (zero_words_length w), if_neg hp, if_pos rfl]
      unfold parseBase2
      dsimp only
      rw [show stripPlus (stripMinus s) = numeralDigits s from rfl,
        Nat.mod_eq_of_lt (show _ < U32 by show _ < 4294967296; omega), if_pos (by omega)]
    · rw [if_neg hlen]
      obtain ⟨o, h1, h2⟩ := (parseBase2_spec (m := m) (ds := numeralDigits s) (out := (BitVecValue.zero w).words) hd
        (by omega) hw (zero_words_length w)).2 (signedVal_none hz)
      apply fromStrRadix_eq_err (o := o) (fromStrRadix_err (by omega) hs hs' ?_)
      rw [parseMagnitude_of_wide h0 (zero_words_length w), if_neg hp, if_pos rfl]
      exact h2

/-- **C37, exact, hexadecimal above 128 bits**: a malformed string that is not longer than the words of the result is an
invalid digit. -/
theorem C37_hex_malformed (m : Mode) {w : Nat} (h0 : 128 < w) {s : List Byte} (hs : s ≠ [])
    (hz : signedVal 16 s = none) (hlen : 4 * (numeralDigits s).length ≤ 64 * ((w + 63) / 64))
    (hlt : 4 * (numeralDigits s).length < 2 ^ 32) :
    BitVecValue.fromStrRadix m s 16 w = ok (.error .invalidDigit) := by
  by_cases hd : numeralDigits s = []
  · exact C37_sign_only m h0 s hs hd
  · have hs' : stripMinus s ≠ [] := by
      intro e; exact hd (by unfold numeralDigits; rw [e]; rfl)
    have hp : stripMinus s ≠ [ch '+'] := by
      intro e; exact hd (by unfold numeralDigits; rw [e]; simp [stripPlus])
    obtain ⟨o, h1, h2⟩ := (parseBase16_spec (m := m) (ds := numeralDigits s) (out := (BitVecValue.zero w).words) hd
      (by rw [zero_words_length]; omega) hlt).2 (signedVal_none hz)
    apply fromStrRadix_eq_err (o := o) (fromStrRadix_err (by omega) hs hs' ?_)
    rw [parseMagnitude_of_wide h0 (zero_words_length w), if_neg hp, if_neg (by decide), if_neg (by decide), if_pos rfl]
    exact h2

/-- **C37, exact, hexadecimal above 128 bits**: a numeral that fits into the words but not into the width is accepted. With a
`-` it is reduced to the width, without it the result is not a legal value. -/
theorem C37_hex_overflow_accepted (m : Mode) {s : List Byte} {w : Nat} (h0 : 128 < w) (hw : w + 63 < 2 ^ 32) {z : Int}
    (hz : signedVal 16 s = some z) (hlen : 4 * (numeralDigits s).length ≤ 64 * ((w + 63) / 64))
    (hge : 2 ^ w ≤ z.natAbs) :
    (s.head? = some (ch '-') → ∃ r, BitVecValue.fromStrRadix m s 16 w = ok (.ok r) ∧ Denotes r (BitVec.ofInt w z)) ∧
    (s.head? ≠ some (ch '-') → ∃ r, BitVecValue.fromStrRadix m s 16 w = ok (.ok r) ∧ r.width = w ∧
      wordsVal r.words = z.natAbs ∧ ¬ Canonical r) := by
  obtain ⟨hs, hs', hu, _⟩ := signedVal_some hz
  have hmag : MagOk m (stripMinus s) 16 (BitVecValue.zero w).words w z.natAbs := by
    refine magOk_wide16 h0 hs' ?_ ?_ hu
    · show (4 * (numeralDigits s).length + 63) / 64 ≤ _; omega
    · show 4 * (numeralDigits s).length < _; omega
  refine ⟨fun hneg => fromStrRadix_denotes (by omega) (by omega) hz hmag (Or.inl hneg), fun hpos => ?_⟩
  obtain ⟨o, h1, h2, h3⟩ := hmag
  refine ⟨⟨w, o⟩, fromStrRadix_eq_ok ?_, rfl, h3, fun hc => ?_⟩
  · rw [Strings.fromStrRadix_eq hs (by omega), if_neg hs', h1, ok_bind]
    simp only
    rw [if_neg hpos]
  · have := hc.val_lt
    simp only at this
    omega

example : signedVal 16 (List.replicate 33 (ch 'f')) = some (2 ^ 132 - 1) ∧ (2 : Nat) ^ 129 ≤ (2 ^ 132 - 1 : Int).natAbs ∧
    BitVecValue.fromStrRadix .debug (List.replicate 33 (ch 'f')) 16 129 =
      ok (.ok ⟨129, [BitVec.allOnes 64, BitVec.allOnes 64, 15#64]⟩) := by decide +kernel

example : BitVecValue.fromStrRadix .release ("12".toList.map ch) 8 129 = panic .todo ∧
    BitVecValue.fromStrRadix .release ("12".toList.map ch) 2 129 = ok (.error .invalidDigit) ∧
    BitVecValue.fromStrRadix .release ("-".toList.map ch) 7 129 = ok (.error .invalidDigit) := by decide +kernel

/-! ## C39, remaining cases -/

theorem wordsVal_of_take_drop {a b : List Word} {k : Nat} (hl : a.length = b.length) (hk : k ≤ a.length)
    (h : a.drop k = b.drop k) :
    wordsVal a = wordsVal (a.take k) + wordsVal b / 2 ^ (64 * k) * 2 ^ (64 * k) := by
  have h1 := wordsVal_append (a.take k) (a.drop k)
  have h2 := wordsVal_append (b.take k) (b.drop k)
  rw [List.take_append_drop, List.length_take, Nat.min_eq_left (by omega)] at h1 h2
  have h3 := wordsVal_lt (b.take k)
  rw [List.length_take, Nat.min_eq_left (by omega)] at h3
  rw [h1, h, h2, Nat.add_mul_div_left _ _ (Nat.two_pow_pos _), Nat.div_eq_of_lt h3, Nat.zero_add, Nat.mul_comm]

theorem assign_of_stale {m : Mode} {v : BitVecValue} {s : List Byte} {radix k : Nat} {z : Int} (h0 : 1 ≤ v.width)
    (hl : v.words.length = (v.width + 63) / 64) (hz : signedVal radix s = some z) (hk : k ≤ v.words.length)
    (hm : ∃ out', parseMagnitude m (stripMinus s) radix v.words v.width = ok (out', .ok ()) ∧
      out'.length = v.words.length ∧ wordsVal (out'.take k) = z.natAbs ∧ out'.drop k = v.words.drop k) :
    ∃ r, BitVecValue.assignFromStrRadix m v s radix = ok (r, .ok ()) ∧ r.width = v.width ∧
      r.words.length = v.words.length ∧
      wordsVal r.words = if s.head? = some (ch '-')
        then (2 ^ (64 * v.words.length) - staleMagnitude k z.natAbs (wordsVal v.words)) % 2 ^ v.width
        else staleMagnitude k z.natAbs (wordsVal v.words) := by
  obtain ⟨hs, hs', hu, _⟩ := signedVal_some hz
  obtain ⟨o, h1, h2, h3, h4⟩ := hm
  have hval : wordsVal o = staleMagnitude k z.natAbs (wordsVal v.words) := by
    rw [wordsVal_of_take_drop h2 (by omega) h4, h3]; rfl
  by_cases hneg : s.head? = some (ch '-')
  · obtain ⟨r, k1, k2, k3⟩ := Arith.negateInPlace_spec (m := m) (d := o) (width := v.width) (by omega) (by omega)
    refine ⟨{ v with words := r }, assignFromStrRadix_eq ?_, rfl, by simp only; omega, ?_⟩
    · rw [Strings.fromStrRadix_eq hs h0, if_neg hs', h1, ok_bind]
      simp only
      rw [if_pos hneg, k1, ok_bind]
    · rw [if_pos hneg, k3, hval, h2]
  · refine ⟨{ v with words := o }, assignFromStrRadix_eq ?_, rfl, h2, ?_⟩
    · rw [Strings.fromStrRadix_eq hs h0, if_neg hs', h1, ok_bind]
      simp only
      rw [if_neg hneg]
    · rw [if_neg hneg, hval]

/-- **C39, exact**: the value after `assign_from_str_radix` of any well-formed binary (hexadecimal) numeral of at most `w` bits
(as many as fit into the words) above 128 bits: the words the digits do not reach keep their previous contents, also below a `-`,
which negates the mixture. -/
theorem C39_exact (m : Mode) {v : BitVecValue} (hv : Canonical v) (hw : 128 < v.width) (s : List Byte) (z : Int) :
    (signedVal 2 s = some z → (numeralDigits s).length ≤ v.width →
      ∃ r, BitVecValue.assignFromStrRadix m v s 2 = ok (r, .ok ()) ∧ r.width = v.width ∧
        r.words.length = v.words.length ∧
        wordsVal r.words = if s.head? = some (ch '-')
          then (2 ^ (64 * v.words.length) -
            staleMagnitude (((numeralDigits s).length + 63) / 64) z.natAbs (wordsVal v.words)) % 2 ^ v.width
          else staleMagnitude (((numeralDigits s).length + 63) / 64) z.natAbs (wordsVal v.words)) ∧
    (signedVal 16 s = some z → 4 * (numeralDigits s).length ≤ 64 * v.words.length →
      4 * (numeralDigits s).length < 2 ^ 32 →
      ∃ r, BitVecValue.assignFromStrRadix m v s 16 = ok (r, .ok ()) ∧ r.width = v.width ∧
        r.words.length = v.words.length ∧
        wordsVal r.words = if s.head? = some (ch '-')
          then (2 ^ (64 * v.words.length) -
            staleMagnitude ((4 * (numeralDigits s).length + 63) / 64) z.natAbs (wordsVal v.words)) % 2 ^ v.width
          else staleMagnitude ((4 * (numeralDigits s).length + 63) / 64) z.natAbs (wordsVal v.words)) := by
  have hl := hv.length_eq
  constructor
  · intro hz hd
    obtain ⟨hs, hs', hu, _⟩ := signedVal_some hz
    exact assign_of_stale (by omega) hl hz (by omega)
      ((parseMagnitude_wide2 (m := m) hw hv.width_lt hl hs' hd).1 _ hu)
  · intro hz hd hd'
    obtain ⟨hs, hs', hu, _⟩ := signedVal_some hz
    exact assign_of_stale (by omega) hl hz (by omega)
      ((parseMagnitude_wide16 (m := m) hw hl hs' (by show (4 * (numeralDigits s).length + 63) / 64 ≤ _; omega) hd').1 _ hu)

example : Canonical (encode (BitVec.allOnes 200)) ∧ signedVal 16 ("-a".toList.map ch) = some (-10) ∧
    BitVecValue.assignFromStrRadix .debug (encode (BitVec.allOnes 200)) ("-a".toList.map ch) 16 =
      ok (encode (-(BitVec.allOnes 200 - 0xffffffffffffffff#200 + 10#200)), .ok ()) :=
  ⟨(encode_denotes _ (by decide)).canonical, by decide +kernel, by decide +kernel⟩

/-! ## C74 -/

/-- **C74, full statement**: a parse that reports an error leaves the destination as it was. -/
def C74_statement : Prop := ∀ (m : Mode) (v r : BitVecValue) (s : List Byte) (radix : Nat) (e : IntErrorKind), Canonical v →
  BitVecValue.assignFromStrRadix m v s radix = ok (r, .error e) → r = v

theorem parseLoop_length {m : Mode} {bits pw n : Nat} {dv : Byte → Option Nat} (cs : List Byte) :
    ∀ (ii : Nat) (out out' : List Word) (oi : Nat) (word : Word) (e : Except IntErrorKind (Nat × Word)),
      parseLoop m bits pw dv n ii out oi word cs = ok (out', e) → out'.length = out.length := by
  induction cs with
  | nil =>
    intro ii out out' oi word e h
    cases h
    rfl
  | cons c cs ih =>
    intro ii out out' oi word e h
    rw [parseLoop] at h
    obtain ⟨rest, _, h⟩ := of_bind_ok h
    obtain ⟨iiRev, _, h⟩ := of_bind_ok h
    obtain ⟨⟨out1, oi1, word1⟩, h1, h⟩ := of_bind_ok h
    have hl : out1.length = out.length := by
      split at h1
      · obtain ⟨k, _, h1⟩ := of_bind_ok h1
        split at h1
        · obtain ⟨o, h2, h1⟩ := of_bind_ok h1
          obtain ⟨_, _, h1⟩ := of_bind_ok h1
          cases h1
          unfold setIdx at h2
          split at h2
          · cases h2; simp
          · cases h2
        · cases h1; rfl
      · cases h1; rfl
    simp only at h
    split at h
    · cases h; exact hl
    · rw [ih _ _ _ _ _ _ h, hl]

theorem parseBase2_length {m : Mode} {ds : List Byte} {out out' : List Word} {w : Nat} {e : Except IntErrorKind Unit}
    (h : parseBase2 m ds out w = ok (out', e)) : out'.length = out.length := by
  unfold parseBase2 at h
  dsimp only at h
  split at h
  · cases h; rfl
  · obtain ⟨_, _, h⟩ := of_bind_ok h
    obtain ⟨⟨o, e'⟩, h1, h⟩ := of_bind_ok h
    have := parseLoop_length _ _ _ _ _ _ _ h1
    cases e' with
    | error e' => cases h; exact this
    | ok p =>
      obtain ⟨oi, word⟩ := p
      simp only at h
      obtain ⟨_, _, h⟩ := of_bind_ok h
      obtain ⟨o2, h2, h⟩ := of_bind_ok h
      cases h
      unfold setIdx at h2
      split at h2
      · cases h2; simp [this]
      · cases h2

theorem parseBase16_length {m : Mode} {ds : List Byte} {out out' : List Word} {e : Except IntErrorKind Unit}
    (h : parseBase16 m ds out = ok (out', e)) : out'.length = out.length := by
  unfold parseBase16 at h
  dsimp only at h
  obtain ⟨_, _, h⟩ := of_bind_ok h
  obtain ⟨_, _, h⟩ := of_bind_ok h
  obtain ⟨⟨o, e'⟩, h1, h⟩ := of_bind_ok h
  have := parseLoop_length _ _ _ _ _ _ _ h1
  cases e' with
  | error e' => cases h; exact this
  | ok p =>
    obtain ⟨oi, word⟩ := p
    simp only at h
    obtain ⟨_, _, h⟩ := of_bind_ok h
    obtain ⟨o2, h2, h⟩ := of_bind_ok h
    obtain ⟨_, _, h⟩ := of_bind_ok h
    cases h
    unfold setIdx at h2
    split at h2
    · cases h2; simp [this]
    · cases h2

theorem parseMagnitude_error {m : Mode} {radix w : Nat} {out out' : List Word} {s : List Byte} {e : IntErrorKind}
    (hl : out.length = (w + 63) / 64) (h0 : 1 ≤ w) (h : parseMagnitude m s radix out w = ok (out', .error e)) :
    out'.length = out.length ∧ (w ≤ 128 → out' = out) := by
  by_cases hw : 128 < w
  · refine ⟨?_, fun h => by omega⟩
    rw [parseMagnitude_of_wide hw hl] at h
    split at h
    · cases h; rfl
    · split at h
      · exact parseBase2_length h
      · split at h
        · cases h
        · split at h
          · exact parseBase16_length h
          · cases h
  · have hc : out.length = 1 ∨ out.length = 2 := by omega
    have : out' = out := by
      match out, hl, hc with
      | [o], _, _ =>
        unfold parseMagnitude at h
        obtain ⟨_, _, h⟩ := of_bind_ok h
        obtain ⟨q, _, h⟩ := of_bind_ok h
        cases q with
        | ok _ => cases h
        | error _ => cases h; rfl
      | [o, o'], _, _ =>
        unfold parseMagnitude at h
        obtain ⟨_, _, h⟩ := of_bind_ok h
        obtain ⟨q, _, h⟩ := of_bind_ok h
        cases q with
        | ok _ => cases h
        | error _ => cases h; rfl
    exact ⟨by rw [this], fun _ => this⟩

theorem assign_error {m : Mode} {v r : BitVecValue} {s : List Byte} {radix : Nat} {e : IntErrorKind}
    (hl : v.words.length = (v.width + 63) / 64) (h : BitVecValue.assignFromStrRadix m v s radix = ok (r, .error e)) :
    r.width = v.width ∧ r.words.length = v.words.length ∧ (v.width ≤ 128 → r = v) := by
  unfold BitVecValue.assignFromStrRadix at h
  obtain ⟨⟨o, e'⟩, h1, h⟩ := of_bind_ok h
  cases h
  have key : o.length = v.words.length ∧ (v.width ≤ 128 → o = v.words) := by
    by_cases hs : s = []
    · subst hs; cases h1
    · by_cases h0 : v.width = 0
      · unfold Strings.fromStrRadix at h1
        rw [if_neg hs] at h1
        dsimp only at h1
        rw [if_pos h0] at h1
        generalize (if (s.head? == some (ch '-')) = true then s.drop 1 else s) = t at h1
        split at h1 <;> cases h1
        exact ⟨rfl, fun _ => rfl⟩
      · rw [Strings.fromStrRadix_eq hs (by omega)] at h1
        split at h1
        · cases h1; exact ⟨rfl, fun _ => rfl⟩
        · obtain ⟨⟨o2, e2⟩, h2, h1⟩ := of_bind_ok h1
          cases e2 with
          | error e2 =>
            simp only at h1
            cases h1
            exact parseMagnitude_error hl (by omega) h2
          | ok u =>
            simp only at h1
            split at h1
            · obtain ⟨_, _, h1⟩ := of_bind_ok h1
              cases h1
            · cases h1
  exact ⟨rfl, key.1, fun hw => by rw [key.2 hw]⟩

/-- **C74, proved part**: up to 128 bits a failed parse leaves the destination as it was.
Missing: wider values, see `C74_refuted`; there only the width and the number of words are kept, and the destination is
untouched if the string is too long for binary parsing (`C74_too_long`). -/
theorem C74_error_keeps_value_partial (m : Mode) {v r : BitVecValue} {s : List Byte} {radix : Nat} {e : IntErrorKind}
    (hv : Canonical v) (hw : v.width ≤ 128) (h : BitVecValue.assignFromStrRadix m v s radix = ok (r, .error e)) : r = v :=
  (assign_error hv.length_eq h).2.2 hw

/-- What is left in every case: the width and the number of words. -/
theorem C74_error_keeps_shape (m : Mode) {v r : BitVecValue} {s : List Byte} {radix : Nat} {e : IntErrorKind}
    (hv : Canonical v) (h : BitVecValue.assignFromStrRadix m v s radix = ok (r, .error e)) :
    r.width = v.width ∧ r.words.length = v.words.length :=
  let ⟨h1, h2, _⟩ := assign_error hv.length_eq h
  ⟨h1, h2⟩

/-- A binary string that is too long is rejected before anything is written. -/
theorem C74_too_long (m : Mode) {v : BitVecValue} {s : List Byte} (hv : Canonical v) (hw : 128 < v.width)
    (hlen : v.width < (numeralDigits s).length) (hlt : (numeralDigits s).length < 2 ^ 32) :
    BitVecValue.assignFromStrRadix m v s 2 = ok (v, .error .exceedsWidth) := by
  have hd : numeralDigits s ≠ [] := by intro e; rw [e] at hlen; simp at hlen
  have hs' : stripMinus s ≠ [] := by
    intro e; exact hd (by unfold numeralDigits; rw [e]; rfl)
  have hs : s ≠ [] := by
    intro e; exact hs' (by rw [e]; rfl)
  have hp : stripMinus s ≠ [ch '+'] := by
    intro e; exact hd (by unfold numeralDigits; rw [e]; simp [stripPlus])
  apply assignFromStrRadix_eq (v := v) (o := v.words) (fromStrRadix_err (by omega) hs hs' ?_)
  rw [parseMagnitude_of_wide hw hv.length_eq, if_neg hp, if_pos rfl]
  unfold parseBase2
  dsimp only
  rw [show stripPlus (stripMinus s) = numeralDigits s from rfl,
    Nat.mod_eq_of_lt (show _ < U32 by show _ < 4294967296; omega), if_pos (by omega)]

/-- **C74 is false of the code**: parsing `0b0…0` (65 characters) into the 129-bit all-ones value fails, but the middle word is
gone. -/
theorem C74_refuted : ¬ C74_statement := fun h => by
  have h1 := h .debug (encode (BitVec.allOnes 129)) ⟨129, [BitVec.allOnes 64, 0#64, 1#64]⟩
    (ch '0' :: ch 'b' :: List.replicate 63 (ch '0')) 2 .invalidDigit (encode_denotes _ (by decide)).canonical
    (by decide +kernel)
  revert h1
  decide

example : BitVecValue.assignFromStrRadix .debug (encode 77#100) ("12x".toList.map ch) 10 =
    ok (encode 77#100, .error .invalidDigit) := by decide +kernel

end Baa
