import Verif.Props.ParseFail
import Verif.Spec.Text

/-!
# The outcome of every parse (C37)

`parseOutcome` says what `from_str_radix` does with any string, radix and width: which number it stores, which error it returns,
or that it panics. `C37_total` proves it of the model in both build modes.
-/

namespace Baa
open Res Strings

/-! ## Proof -/

theorem readDigits_some {radix : Nat} {s : List Byte} : ∀ {acc n : Nat}, digitsFrom radix acc s = some n →
    readDigits radix acc s = (n, []) := by
  induction s with
  | nil => intro acc n h; cases h; rfl
  | cons c s ih =>
    intro acc n h
    rw [digitsFrom] at h
    rw [readDigits]
    cases hd : digitOf radix c with
    | none => rw [hd] at h; cases h
    | some d => rw [hd] at h; exact ih h

theorem readDigits_append {radix : Nat} {c : Byte} (hc : digitOf radix c = none) (post pre : List Byte) :
    ∀ {acc p : Nat}, digitsFrom radix acc pre = some p → readDigits radix acc (pre ++ c :: post) = (p, c :: post) := by
  induction pre with
  | nil => intro acc p h; cases h; rw [List.nil_append, readDigits, hc]
  | cons d pre ih =>
    intro acc p h
    rw [digitsFrom] at h
    rw [List.cons_append, readDigits]
    cases hd : digitOf radix d with
    | none => rw [hd] at h; cases h
    | some x => rw [hd] at h; exact ih h

theorem readDigits_fails {radix : Nat} {s : List Byte} {p rest : Nat} (h : FailsAfter radix s p rest) :
    (readDigits radix 0 s).1 = p ∧ (readDigits radix 0 s).2.length = rest + 1 ∧ (readDigits radix 0 s).2 ≠ [] := by
  obtain ⟨pre, c, post, rfl, h1, h2, rfl⟩ := h
  rw [readDigits_append h2 post pre h1]
  simp

/-- A successful magnitude parse of a zero value, with the number stored in the end. -/
theorem yields_of_magOk {m : Mode} {s : List Byte} {radix w n : Nat} (h0 : 1 ≤ w) (hs : s ≠ []) (hs' : stripMinus s ≠ [])
    (hm : MagOk m (stripMinus s) radix (BitVecValue.zero w).words w n) :
    Yields w (BitVecValue.fromStrRadix m s radix w) (.stores (storedMagnitude w s n)) := by
  obtain ⟨o, h1, h2, h3⟩ := hm
  have hl := zero_words_length w
  by_cases hneg : s.head? = some (ch '-')
  · obtain ⟨r, k1, k2, k3⟩ := Arith.negateInPlace_spec (m := m) (d := o) (width := w) (by omega) (by omega)
    refine ⟨⟨w, r⟩, fromStrRadix_eq_ok ?_, rfl, by simp only; omega, ?_⟩
    · rw [Strings.fromStrRadix_eq hs h0, if_neg hs', h1, ok_bind]
      simp only
      rw [if_pos hneg, k1, ok_bind]
    · unfold storedMagnitude
      rw [if_pos hneg, k3, h3, BitVec.ofInt_neg, BitVec.toNat_neg, BitVec.ofInt_natCast, BitVec.toNat_ofNat]
      have hlt : n < 2 ^ (64 * o.length) := by rw [← h3]; exact wordsVal_lt o
      obtain ⟨t, ht⟩ : ∃ t, 64 * o.length = w + t := ⟨64 * o.length - w, by omega⟩
      rw [ht, Nat.pow_add] at hlt ⊢
      generalize 2 ^ w = W at *
      generalize 2 ^ t = T at *
      have hW : 0 < W := Nat.pos_of_ne_zero fun e => by rw [e] at hlt; omega
      have h5 := Nat.div_add_mod n W
      have h6 := Nat.mod_lt n hW
      have hq : n / W < T := Nat.div_lt_of_lt_mul hlt
      generalize n / W = q at *
      generalize n % W = r at *
      have e : W * T - n = (W - r) + W * (T - q - 1) := by
        have : W * T = W * (T - q - 1) + W * q + W := by
          rw [← Nat.mul_add, ← Nat.mul_succ]; congr 1; omega
        omega
      rw [e, Nat.add_mul_mod_self_left]
  · refine ⟨⟨w, o⟩, fromStrRadix_eq_ok ?_, rfl, by simp only; omega, ?_⟩
    · rw [Strings.fromStrRadix_eq hs h0, if_neg hs', h1, ok_bind]
      simp only
      rw [if_neg hneg]
    · unfold storedMagnitude
      rw [if_neg hneg, h3]

/-- **C37, the outcome of every parse**, in both build modes: any string, any radix, any width. (Above 128 bits the digit count
must fit into the 32 bits the code keeps for it, `4 * digits` for hexadecimal; longer strings are never accepted, see
`C37_huge_rejected`.) -/
theorem C37_total (m : Mode) (radix w : Nat) (s : List Byte) (hw : w < 2 ^ 32)
    (hbin : 128 < w → radix = 2 → (numeralDigits s).length < 2 ^ 32)
    (hhex : 128 < w → radix = 16 → 4 * (numeralDigits s).length < 2 ^ 32) :
    Yields w (BitVecValue.fromStrRadix m s radix w) (parseOutcome radix w s) := by
  unfold parseOutcome
  dsimp only
  by_cases hs : s = []
  · subst hs
    rw [if_pos rfl]
    exact ⟨_, C37_empty_is_zero m radix w, rfl, zero_words_length w, zero_words_val w⟩
  rw [if_neg hs]
  by_cases h0 : w = 0
  · subst h0
    rw [if_pos rfl]
    have h := C37_width_zero m radix hs
    split at h
    · next e => rw [if_pos e]; exact ⟨_, h, rfl, rfl, rfl⟩
    · next e => rw [if_neg e]; exact h
  rw [if_neg h0]
  by_cases hs' : stripMinus s = []
  · rw [if_pos hs']
    exact fromStrRadix_eq_err (fromStrRadix_minus (by omega) hs hs')
  rw [if_neg hs']
  by_cases h128 : w ≤ 128
  · rw [if_pos h128]
    by_cases hr : radix < 2 ∨ 36 < radix
    · rw [if_pos hr]
      exact ⟨_, C37_bad_radix_panics m hr (by omega) h128 hs'⟩
    rw [if_neg hr]
    by_cases hd : numeralDigits s = []
    · rw [if_pos hd]
      exact C37_small_sign_only m (by omega) (by omega) (by omega) h128 hs hd
    rw [if_neg hd]
    cases hv : digitsFrom radix 0 (numeralDigits s) with
    | none =>
      obtain ⟨p, rest, hf⟩ := failsAfter_of_none hv
      obtain ⟨e1, e2, e3⟩ := readDigits_fails hf
      have h := C37_small_malformed m (by omega) (by omega) (by omega) h128 hf
      rw [e1]
      by_cases hp : p < 2 ^ (64 * ((w + 63) / 64))
      · rw [if_pos hp] at h
        rw [if_neg (by omega), if_neg e3]
        exact h
      · rw [if_neg hp] at h
        rw [if_pos (by omega)]
        exact h
    | some n =>
      have hu : unsignedVal radix (stripMinus s) = some n := by
        show digitsVal radix (numeralDigits s) = _
        unfold digitsVal
        rw [if_neg hd, hv]
      obtain ⟨k1, k2, -⟩ := parseMagnitude_small (m := m) (by omega) h128 (zero_words_length w)
        (radix := radix) (by omega) (by omega) hs'
      rw [zero_words_length] at k1 k2
      rw [readDigits_some hv]
      dsimp only
      by_cases hn : 2 ^ (64 * ((w + 63) / 64)) ≤ n
      · rw [if_pos hn]
        exact fromStrRadix_eq_err (fromStrRadix_err (by omega) hs hs' (k2 n hu hn))
      · rw [if_neg hn, if_pos rfl]
        exact yields_of_magOk (by omega) hs hs' (k1 n hu (by omega))
  rw [if_neg h128]
  by_cases hd : numeralDigits s = []
  · rw [if_pos hd]
    exact C37_sign_only m (by omega) s hs hd
  rw [if_neg hd]
  have hnone : ∀ {r}, digitsFrom r 0 (numeralDigits s) = none → signedVal r s = none := by
    intro r h
    cases hz : signedVal r s with
    | none => rfl
    | some z =>
      have := (signedVal_some hz).2.2.1
      change digitsVal r (numeralDigits s) = _ at this
      unfold digitsVal at this
      rw [if_neg hd, h] at this
      cases this
  have hsome : ∀ {r n}, digitsFrom r 0 (numeralDigits s) = some n → unsignedVal r (stripMinus s) = some n := by
    intro r n h
    show digitsVal r (numeralDigits s) = _
    unfold digitsVal
    rw [if_neg hd, h]
  have hsv : ∀ {r n}, digitsFrom r 0 (numeralDigits s) = some n → ∃ z, signedVal r s = some z := by
    intro r n h
    cases hz : signedVal r s with
    | none => have := signedVal_none hz; rw [hsome h] at this; cases this
    | some z => exact ⟨z, rfl⟩
  by_cases h2 : radix = 2
  · subst h2
    rw [if_pos rfl]
    cases hv : digitsFrom 2 0 (numeralDigits s) with
    | none =>
      obtain ⟨p, rest, hf⟩ := failsAfter_of_none hv
      obtain ⟨e1, e2, e3⟩ := readDigits_fails hf
      have h := C37_bin_malformed m (by omega) hw hs (hnone hv) (hbin (by omega) rfl)
      split at h
      · next hl => rw [if_pos hl]; exact h
      · next hl => rw [if_neg hl, if_neg e3]; exact h
    | some n =>
      rw [readDigits_some hv]
      dsimp only
      by_cases hl : w < (numeralDigits s).length
      · rw [if_pos hl]
        obtain ⟨z, hz⟩ := hsv hv
        exact (C37_from_str_radix_bin_partial m (by omega) hw hz).2 hl (hbin (by omega) rfl)
      · rw [if_neg hl, if_pos rfl]
        exact yields_of_magOk (by omega) hs hs' (magOk_wide2 (by omega) hw hs' (by show (numeralDigits s).length ≤ w; omega) (hsome hv))
  rw [if_neg h2]
  by_cases h16 : radix = 16
  · subst h16
    rw [if_pos rfl]
    have hlt := hhex (by omega) rfl
    cases hv : digitsFrom 16 0 (numeralDigits s) with
    | none =>
      obtain ⟨p, rest, hf⟩ := failsAfter_of_none hv
      obtain ⟨e1, e2, e3⟩ := readDigits_fails hf
      by_cases hl : 4 * (numeralDigits s).length ≤ 64 * ((w + 63) / 64)
      · rw [if_pos hl, if_neg e3]
        exact C37_hex_malformed m (by omega) hs (hnone hv) hl hlt
      · rw [if_neg hl, e2]
        have h := C37_hex_too_long_malformed m (w := w) (by omega) hf (by omega) hlt
        split at h
        · next hr => rw [if_pos (by omega)]; exact h
        · next hr => rw [if_neg (by omega)]; exact ⟨_, h⟩
    | some n =>
      rw [readDigits_some hv]
      dsimp only
      by_cases hl : 4 * (numeralDigits s).length ≤ 64 * ((w + 63) / 64)
      · rw [if_pos hl, if_pos rfl]
        refine yields_of_magOk (by omega) hs hs' (magOk_wide16 (by omega) hs' ?_ hlt (hsome hv))
        show (4 * (numeralDigits s).length + 63) / 64 ≤ _; omega
      · rw [if_neg hl, if_neg (by simp)]
        obtain ⟨z, hz⟩ := hsv hv
        exact ⟨_, C37_hex_too_long_panics m (by omega) hz (by omega) hlt⟩
  rw [if_neg h16]
  exact ⟨_, C37_unsupported_radix_panics m (by omega) h2 h16 hd⟩

/-- All four outcomes occur: stored, stored beyond the width, reduced to the width; both errors; a panic. -/
example : parseOutcome 10 8 ("77".toList.map ch) = .stores 77 ∧ parseOutcome 10 8 ("777".toList.map ch) = .stores 777 ∧
    parseOutcome 10 8 ("-257".toList.map ch) = .stores 255 ∧ parseOutcome 10 8 ("1_000".toList.map ch) = .invalid ∧
    parseOutcome 36 8 ("zzzzzzzzzzzzzz".toList.map ch) = .exceeds ∧ parseOutcome 10 129 ("0".toList.map ch) = .panics := by
  decide +kernel

/-! ## Strings too long for a 32-bit digit count -/

theorem subC_mod {m : Mode} {M a b c : Nat} (h : subC m M a b = ok c) (ha : a < M) :
    c < M ∧ c % M = (M + a - b) % M := by
  unfold subC at h
  split at h
  · cases h
    refine ⟨by omega, ?_⟩
    rw [show M + a - b = (a - b) + M by omega, Nat.add_mod_right]
  · cases m with
    | debug => cases h
    | release =>
      cases h
      exact ⟨Nat.mod_lt _ (by omega), Nat.mod_mod _ _⟩

theorem addC_mod {m : Mode} {M a b c : Nat} (h : addC m M a b = ok c) : c % M = (a + b) % M := by
  unfold addC at h
  split at h
  · cases h; rfl
  · cases m with
    | debug => cases h
    | release => cases h; exact Nat.mod_mod _ _

/-- One round of a digit loop that succeeds in the end: the current word is written (to a position in bounds) exactly if the
number of digits that are left to read is a multiple of `pw`. -/
theorem parseLoop_round {m : Mode} {bits pw n : Nat} {dv : Byte → Option Nat} (hdvd : pw ∣ U64) (hn : n < U64)
    {out o : List Word} {outIi ii : Nat} {word : Word} {c : Byte} {cs : List Byte} {q : Nat × Word} (hii : ii < U64)
    (h : parseLoop m bits pw dv n ii out outIi word (c :: cs) = ok (o, .ok q)) :
    (0 < ii → (n + U64 - ii) % pw = 0 → outIi < out.length ∧ ∃ out' outIi' word', out'.length = out.length ∧
      subC m U64 outIi 1 = ok outIi' ∧ parseLoop m bits pw dv n (ii + 1) out' outIi' word' cs = ok (o, .ok q)) ∧
    (ii = 0 ∨ (n + U64 - ii) % pw ≠ 0 → ∃ word', parseLoop m bits pw dv n (ii + 1) out outIi word' cs = ok (o, .ok q)) := by
  rw [parseLoop] at h
  obtain ⟨rest, hrest, h⟩ := of_bind_ok h
  obtain ⟨iiRev, hrev, h⟩ := of_bind_ok h
  obtain ⟨⟨out1, oi1, word1⟩, h1, h⟩ := of_bind_ok h
  simp only at h
  have hU : (U64 : Nat) = 18446744073709551616 := rfl
  have hnext : ∃ word', parseLoop m bits pw dv n (ii + 1) out1 oi1 word' cs = ok (o, .ok q) := by
    split at h
    · cases h
    · exact ⟨_, h⟩
  obtain ⟨a1, a2⟩ := subC_mod hrest hn
  obtain ⟨b1, b2⟩ := subC_mod hrev a1
  have hk : ∀ k, addC m U64 iiRev 1 = ok k → k % pw = (n + U64 - ii) % pw := by
    intro k h
    have e := addC_mod h
    have e2 : k % U64 = (n + U64 - ii) % U64 := by
      rw [Nat.mod_eq_of_lt b1] at b2
      rw [Nat.mod_eq_of_lt a1] at a2
      rw [hU] at *
      omega
    rw [← Nat.mod_mod_of_dvd k hdvd, e2, Nat.mod_mod_of_dvd _ hdvd]
  constructor
  · intro hpos h0
    rw [if_pos hpos] at h1
    obtain ⟨k, hk1, h1⟩ := of_bind_ok h1
    rw [if_pos (by rw [hk k hk1, h0])] at h1
    obtain ⟨o1, h2, h1⟩ := of_bind_ok h1
    obtain ⟨oi2, h3, h1⟩ := of_bind_ok h1
    cases h1
    unfold setIdx at h2
    split at h2
    · next hlt =>
      cases h2
      obtain ⟨word', hw⟩ := hnext
      exact ⟨hlt, _, _, word', by simp, h3, hw⟩
    · cases h2
  · intro hor
    have : (out1, oi1) = (out, outIi) := by
      by_cases hpos : ii > 0
      · rw [if_pos hpos] at h1
        obtain ⟨k, hk1, h1⟩ := of_bind_ok h1
        rw [if_neg (by rw [hk k hk1]; rcases hor with h | h; omega; exact h)] at h1
        cases h1
        rfl
      · rw [if_neg hpos] at h1
        cases h1
        rfl
    cases this
    exact hnext

/-- The digit loop cannot succeed on more digits than the words from the write position down can hold: the write position then
leaves the words. `f` is the number of words that can still be written. -/
theorem parseLoop_never {m : Mode} {bits pw n : Nat} {dv : Byte → Option Nat} (hpw : 0 < pw) (hdvd : pw ∣ U64) (hn : n < U64)
    (cs : List Byte) : ∀ (ii : Nat) (out : List Word) (outIi : Nat) (word : Word) (o : List Word) (q : Nat × Word) (f : Nat),
      0 < ii → ii + cs.length < U64 → out.length < U64 → (if outIi < out.length then outIi + 1 else 0) = f →
      (n + U64 - ii) % pw + pw * f < cs.length → parseLoop m bits pw dv n ii out outIi word cs ≠ ok (o, .ok q) := by
  have hU : (U64 : Nat) = 18446744073709551616 := rfl
  induction cs with
  | nil => intro ii out outIi word o q f _ _ _ _ h; simp at h
  | cons c cs ih =>
    intro ii out outIi word o q f hpos hlt hout hf hlen h
    simp only [List.length_cons] at hlt hlen
    obtain ⟨r1, r2⟩ := parseLoop_round hdvd hn (by omega) h
    by_cases h0 : (n + U64 - ii) % pw = 0
    · obtain ⟨g1, out', outIi', word', g2, g3, g4⟩ := r1 hpos h0
      rw [if_pos g1] at hf
      have ht : (n + U64 - (ii + 1)) % pw = pw - 1 := by
        obtain ⟨x, hx⟩ := Nat.dvd_of_mod_eq_zero h0
        have hx0 : 0 < x := Nat.pos_of_ne_zero fun e => by rw [e] at hx; omega
        have e : n + U64 - (ii + 1) = (pw - 1) + pw * (x - 1) := by
          have : pw * x = pw * (x - 1) + pw := by rw [← Nat.mul_succ]; congr 1; omega
          omega
        rw [e, Nat.add_mul_mod_self_left, Nat.mod_eq_of_lt (by omega)]
      have hf' : (if outIi' < out'.length then outIi' + 1 else 0) = f - 1 := by
        rw [g2]
        unfold subC at g3
        split at g3
        · cases g3
          rw [if_pos (by omega)]; omega
        · cases m with
          | debug => cases g3
          | release =>
            cases g3
            have hz : outIi = 0 := by omega
            subst hz
            have : (U64 + 0 - 1) % U64 = U64 - 1 := rfl
            rw [this, if_neg (by omega)]; omega
      refine ih (ii + 1) out' outIi' word' o q _ (by omega) (by omega) (by omega) hf' ?_ g4
      rw [ht]
      have : pw * f = pw * (f - 1) + pw := by rw [← Nat.mul_succ]; congr 1; omega
      omega
    · obtain ⟨word', g⟩ := r2 (.inr h0)
      refine ih (ii + 1) out outIi word' o q f (by omega) (by omega) hout hf ?_ g
      have ht : (n + U64 - (ii + 1)) % pw = (n + U64 - ii) % pw - 1 := by
        have h5 := Nat.div_add_mod (n + U64 - ii) pw
        have h6 := Nat.mod_lt (n + U64 - ii) hpw
        generalize (n + U64 - ii) / pw = x at *
        generalize (n + U64 - ii) % pw = r at *
        rw [show n + U64 - (ii + 1) = (r - 1) + pw * x by omega, Nat.add_mul_mod_self_left, Nat.mod_eq_of_lt (by omega)]
      omega

/-- From the start of the loop, in terms of the number of digits. -/
theorem parseLoop_never_start {m : Mode} {bits pw n : Nat} {dv : Byte → Option Nat} (hpw : 0 < pw) (hdvd : pw ∣ U64) (hn : n < U64)
    {cs : List Byte} {out : List Word} {outIi : Nat} {word : Word} {o : List Word} {q : Nat × Word} (hout : out.length < U64)
    (hlt : cs.length < U64) (h : out.length ≤ outIi ∧ pw < cs.length ∨ pw * (outIi + 2) < cs.length) :
    parseLoop m bits pw dv n 0 out outIi word cs ≠ ok (o, .ok q) := by
  intro hok
  cases cs with
  | nil => simp at h
  | cons c cs =>
    obtain ⟨word', g⟩ := (parseLoop_round hdvd hn (by show 0 < U64; decide) hok).2 (.inl rfl)
    simp only [List.length_cons] at hlt h
    have hm := Nat.mod_lt (n + U64 - 1) hpw
    refine parseLoop_never hpw hdvd hn cs 1 out outIi word' o q _ (by omega) (by omega) hout rfl ?_ g
    split
    · have : pw * (outIi + 2) = pw * (outIi + 1) + pw := rfl
      omega
    · rw [Nat.mul_zero]
      rcases h with h | h
      · omega
      · have : pw * (outIi + 2) = pw * outIi + pw + pw := rfl
        omega

/-- **C37, the strings not covered by `C37_total`**: above 128 bits a binary string of `2^32` or more characters after the sign, or
a hexadecimal one of `2^30` or more, is never accepted (it is an error or a panic, depending on the length modulo `2^32` and the
build mode). -/
theorem C37_huge_rejected (m : Mode) {radix w : Nat} {s : List Byte} (h0 : 128 < w) (hw : w < 2 ^ 32) (hlen : s.length < 2 ^ 63)
    (h : radix = 2 ∧ 2 ^ 32 ≤ (numeralDigits s).length ∨ radix = 16 ∧ 2 ^ 32 ≤ 4 * (numeralDigits s).length) (r : BitVecValue) :
    BitVecValue.fromStrRadix m s radix w ≠ ok (.ok r) := by
  intro hok
  have hU : (U64 : Nat) = 18446744073709551616 := rfl
  have hU32 : (U32 : Nat) = 4294967296 := rfl
  have hd : numeralDigits s ≠ [] := by
    intro e; rw [e] at h; simp at h
  have hdl : (numeralDigits s).length ≤ s.length := by
    refine Nat.le_trans (stripPlus_length_le _) ?_
    unfold stripMinus
    split <;> simp
  have hs' : stripMinus s ≠ [] := by
    intro e; exact hd (by unfold numeralDigits; rw [e]; rfl)
  have hs : s ≠ [] := by
    intro e; exact hs' (by rw [e]; rfl)
  have hp : stripMinus s ≠ [ch '+'] := by
    intro e; exact hd (by unfold numeralDigits; rw [e]; simp [stripPlus])
  have hl := zero_words_length w
  -- the magnitude parser succeeded
  obtain ⟨o, hm⟩ : ∃ o, parseMagnitude m (stripMinus s) radix (BitVecValue.zero w).words w = ok (o, .ok ()) := by
    unfold BitVecValue.fromStrRadix BitVecValue.assignFromStrRadix at hok
    have e : (BitVecValue.zero w).width = w := rfl
    rw [e, Strings.fromStrRadix_eq hs (by omega), if_neg hs'] at hok
    cases hpm : parseMagnitude m (stripMinus s) radix (BitVecValue.zero w).words w with
    | panic p => rw [hpm] at hok; cases hok
    | ok x =>
      obtain ⟨o, e⟩ := x
      cases e with
      | error e => rw [hpm] at hok; cases hok
      | ok u => exact ⟨o, rfl⟩
  rw [parseMagnitude_of_wide h0 hl, if_neg hp, show stripPlus (stripMinus s) = numeralDigits s from rfl] at hm
  generalize (BitVecValue.zero w).words = out at *
  generalize numeralDigits s = ds at *
  rcases h with ⟨rfl, h⟩ | ⟨rfl, h⟩
  · rw [if_pos rfl] at hm
    unfold parseBase2 at hm
    dsimp only at hm
    split at hm
    · cases hm
    · next hle =>
      have hdc : divCeil (ds.length % U32) BITS = (ds.length % U32 + 63) / 64 := rfl
      obtain ⟨oi, hoi, hm⟩ := of_bind_ok hm
      obtain ⟨⟨o1, e1⟩, hloop, hm⟩ := of_bind_ok hm
      cases e1 with
      | error e => cases hm
      | ok q =>
        refine parseLoop_never_start (by decide) (by decide) (by omega) (by omega) (by omega) ?_ hloop
        simp only [hdc, hU32] at hoi hle
        unfold subC at hoi
        split at hoi
        · cases hoi
          right; omega
        · cases m with
          | debug => cases hoi
          | release => cases hoi; left; omega
  · rw [if_neg (by decide), if_neg (by decide), if_pos rfl] at hm
    unfold parseBase16 at hm
    dsimp only at hm
    obtain ⟨b, hb, hm⟩ := of_bind_ok hm
    obtain ⟨oi, hoi, hm⟩ := of_bind_ok hm
    obtain ⟨⟨o1, e1⟩, hloop, hm⟩ := of_bind_ok hm
    have hdc : divCeil b BITS = (b + 63) / 64 := rfl
    cases e1 with
    | error e => cases hm
    | ok q =>
      have hb' : b = 4 * ds.length % 4294967296 := by
        simp only [hU32] at hb
        unfold mulC at hb
        split at hb
        · cases hb; omega
        · cases m with
          | debug => cases hb
          | release => cases hb; omega
      refine parseLoop_never_start (by decide) (by decide) (by omega) (by omega) (by omega) ?_ hloop
      simp only [hdc, hU32] at hoi
      unfold subC at hoi
      split at hoi
      · cases hoi
        right; omega
      · cases m with
        | debug => cases hoi
        | release => cases hoi; left; omega

/-- **C37, soundness of acceptance**, for every string: whatever is accepted is accepted according to `parseOutcome`. -/
theorem C37_accepted (m : Mode) {radix w : Nat} {s : List Byte} (hw : w < 2 ^ 32) (hlen : s.length < 2 ^ 63) {r : BitVecValue}
    (h : BitVecValue.fromStrRadix m s radix w = ok (.ok r)) :
    parseOutcome radix w s = .stores (wordsVal r.words) ∧ r.width = w ∧ r.words.length = (w + 63) / 64 := by
  have hy : Yields w (BitVecValue.fromStrRadix m s radix w) (parseOutcome radix w s) := by
    apply C37_total m radix w s hw
    · intro h0 hr
      apply Decidable.byContradiction
      intro hn
      exact C37_huge_rejected m h0 hw hlen (.inl ⟨hr, by omega⟩) r h
    · intro h0 hr
      apply Decidable.byContradiction
      intro hn
      exact C37_huge_rejected m h0 hw hlen (.inr ⟨hr, by omega⟩) r h
  revert hy
  cases parseOutcome radix w s with
  | stores n =>
    rintro ⟨r', h1, h2, h3, h4⟩
    rw [h] at h1
    cases h1
    exact ⟨by rw [h4], h2, h3⟩
  | invalid => intro hy; rw [Yields, h] at hy; cases hy
  | exceeds => intro hy; rw [Yields, h] at hy; cases hy
  | panics => rintro ⟨p, hy⟩; rw [h] at hy; cases hy

/-- The lengths of the huge strings exist: a string of `2^32` zeros meets the hypotheses of `C37_huge_rejected`. -/
example : (List.replicate (2 ^ 32) (ch '0')).length < 2 ^ 63 ∧
    2 ^ 32 ≤ (numeralDigits (List.replicate (2 ^ 32) (ch '0'))).length := by
  have e : ∀ n, numeralDigits (List.replicate n (ch '0')) = List.replicate n (ch '0') := by
    intro n
    cases n with
    | zero => rfl
    | succ n =>
      unfold numeralDigits stripMinus stripPlus
      rw [List.replicate_succ]
      simp [ch]
  rw [e, List.length_replicate]
  omega

end Baa
