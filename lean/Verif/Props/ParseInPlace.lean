import Verif.Props.ParseTotal
import Verif.Props.Raw
import Verif.Spec.Text

/-!
# The outcome of every in-place parse (C88)

`assignOutcome` says what `assign_from_str_radix` does with any string, radix, width and previous contents of the destination:
what it reports, and which number the words of the destination hold afterwards. `C88_assign_total` proves it of the model in both
build modes; the previous contents are arbitrary words, with or without bits above the width.
-/

namespace Baa
open Res Strings

/-! ## Proof -/

theorem assign_panics {m : Mode} {v : BitVecValue} {s : List Byte} {radix : Nat} {p : Panic}
    (h : Strings.fromStrRadix m s radix v.words v.width = panic p) : Panics (BitVecValue.assignFromStrRadix m v s radix) := by
  unfold BitVecValue.assignFromStrRadix
  rw [h]
  exact ⟨p, rfl⟩

theorem assign_keeps {m : Mode} {w old : Nat} {v : BitVecValue} {s : List Byte} {radix : Nat} {r : Except IntErrorKind Unit}
    (hv : Raw v w old) (h : Strings.fromStrRadix m s radix v.words v.width = ok (v.words, r)) :
    ∃ x, BitVecValue.assignFromStrRadix m v s radix = ok (x, r) ∧ Raw x w old :=
  ⟨v, assignFromStrRadix_eq h, hv⟩

/-- Reducing the negated words is negation at the width. -/
theorem storedMagnitude_neg {w cap n : Nat} {s : List Byte} (hn : n < 2 ^ cap) (hw : w ≤ cap) (h : s.head? = some (ch '-')) :
    (2 ^ cap - n) % 2 ^ w = storedMagnitude w s n := by
  unfold storedMagnitude
  rw [if_pos h, BitVec.ofInt_neg, BitVec.toNat_neg, BitVec.ofInt_natCast, BitVec.toNat_ofNat]
  obtain ⟨t, rfl⟩ : ∃ t, cap = w + t := ⟨cap - w, by omega⟩
  rw [Nat.pow_add] at hn ⊢
  generalize 2 ^ w = W at *
  generalize 2 ^ t = T at *
  have hW : 0 < W := Nat.pos_of_ne_zero fun e => by rw [e] at hn; omega
  have h5 := Nat.div_add_mod n W
  have h6 := Nat.mod_lt n hW
  have hq : n / W < T := Nat.div_lt_of_lt_mul hn
  generalize n / W = q at *
  generalize n % W = r at *
  have e : W * T - n = (W - r) + W * (T - q - 1) := by
    have : W * T = W * (T - q - 1) + W * q + W := by
      rw [← Nat.mul_add, ← Nat.mul_succ]; congr 1; omega
    omega
  rw [e, Nat.add_mul_mod_self_left]

/-- A successful magnitude parse, with the number stored in the end. -/
theorem leaves_of_magOk {m : Mode} {s : List Byte} {radix w old n : Nat} {v : BitVecValue} (hv : Raw v w old) (h0 : 1 ≤ w)
    (hs : s ≠ []) (hs' : stripMinus s ≠ []) (hm : MagOk m (stripMinus s) radix v.words w n) :
    Leaves w (BitVecValue.assignFromStrRadix m v s radix) (.stores (storedMagnitude w s n)) := by
  obtain ⟨o, h1, h2, h3⟩ := hm
  obtain ⟨hlt, rfl, hl, -⟩ := hv
  by_cases hneg : s.head? = some (ch '-')
  · obtain ⟨r, k1, k2, k3⟩ := Arith.negateInPlace_spec (m := m) (d := o) (width := v.width) (by omega) (by omega)
    refine ⟨{ v with words := r }, assignFromStrRadix_eq ?_, hlt, rfl, by simp only; omega, ?_⟩
    · rw [Strings.fromStrRadix_eq hs h0, if_neg hs', h1, ok_bind]
      simp only
      rw [if_pos hneg, k1, ok_bind]
    · rw [k3, h3]
      exact storedMagnitude_neg (by rw [← h3]; exact wordsVal_lt o) (by omega) hneg
  · refine ⟨{ v with words := o }, assignFromStrRadix_eq ?_, hlt, rfl, by simp only; omega, ?_⟩
    · rw [Strings.fromStrRadix_eq hs h0, if_neg hs', h1, ok_bind]
      simp only
      rw [if_neg hneg]
    · unfold storedMagnitude
      rw [if_neg hneg, h3]

/-- The sign alone, in front of a destination of at most two words. -/
theorem parseMagnitude_plus_small {m : Mode} {radix w : Nat} {out : List Word} (hr : 2 ≤ radix) (hr' : radix ≤ 36) (h0 : 1 ≤ w)
    (hw : w ≤ 128) (hl : out.length = (w + 63) / 64) :
    parseMagnitude m [ch '+'] radix out w = ok (out, .error .invalidDigit) := by
  have hstd : ∀ M, stdFromStrRadix M radix [ch '+'] = ok (.error .invalidDigit) := by
    intro M
    unfold stdFromStrRadix
    rw [if_neg (by omega)]
    rfl
  have hc : out.length = 1 ∨ out.length = 2 := by omega
  match out, hl, hc with
  | [o], hl, _ =>
    have hle : w ≤ 64 := by simp at hl; omega
    rw [parseMagnitude, debugAssert_decide_of hle, ok_bind, hstd, ok_bind]
    rfl
  | [o1, o2], hl, _ =>
    rw [parseMagnitude, debugAssert_decide_of hw, ok_bind, hstd, ok_bind]
    rfl

theorem parseMagnitude_bad_radix {m : Mode} {radix w : Nat} {out : List Word} {s : List Byte} (hr : radix < 2 ∨ 36 < radix)
    (h0 : 1 ≤ w) (hw : w ≤ 128) (hl : out.length = (w + 63) / 64) : parseMagnitude m s radix out w = panic .explicit := by
  have hstd : ∀ M t, stdFromStrRadix M radix t = panic .explicit := by
    intro M t
    unfold stdFromStrRadix
    rw [if_pos (by omega)]
  have hc : out.length = 1 ∨ out.length = 2 := by omega
  match out, hl, hc with
  | [o], hl, _ =>
    have hle : w ≤ 64 := by simp at hl; omega
    rw [parseMagnitude, debugAssert_decide_of hle, ok_bind, hstd]
    rfl
  | [o1, o2], hl, _ =>
    rw [parseMagnitude, debugAssert_decide_of hw, ok_bind, hstd]
    rfl

/-- The digit loop of `parse_base_2` on a malformed string. -/
theorem parseMagnitude_fails2 {m : Mode} {w p rest : Nat} {out : List Word} {s : List Byte} (hw : 128 < w) (hw' : w < 2 ^ 32)
    (hl : out.length = (w + 63) / 64) (h : FailsAfter 2 (numeralDigits s) p rest) (hlen : (numeralDigits s).length ≤ w) :
    ∃ o, parseMagnitude m (stripMinus s) 2 out w = ok (o, .error .invalidDigit) ∧ o.length = out.length ∧
      wordsVal o = partialMagnitude 1 p (rest + 1) (numeralDigits s).length (wordsVal out) := by
  have hU : (U32 : Nat) = 4294967296 := rfl
  have hU' : (U64 : Nat) = 18446744073709551616 := rfl
  obtain ⟨hs, hs', hp⟩ := strip_of_fails h
  obtain ⟨pre, c, post, e, h1, h2, rfl⟩ := h
  have elen : (numeralDigits s).length = pre.length + (post.length + 1) := by rw [e]; simp
  obtain ⟨o, g1, g2, g3, g4, g5, g6⟩ := parseLoop_fails (m := m) (bits := 1) (pw := 64) rfl (dv := binDigitValue)
    binDigitValue_eq (n := (numeralDigits s).length) (by omega) h2 post rfl pre 0 out
    (((numeralDigits s).length + 63) / 64 - 1) 0#64 p (by omega) (by omega) (fun _ => by omega) (fun h => by omega)
    (by simp [Nat.two_pow_pos]) h1
  refine ⟨o, ?_, g2, ?_⟩
  · rw [parseMagnitude_of_wide hw hl, if_neg hp, if_pos rfl, show stripPlus (stripMinus s) = numeralDigits s from rfl]
    unfold parseBase2
    dsimp only
    rw [Nat.mod_eq_of_lt (show (numeralDigits s).length < U32 by omega), if_neg (by omega),
      show divCeil (numeralDigits s).length BITS = ((numeralDigits s).length + 63) / 64 from rfl, subC_ok (by omega), ok_bind]
    rw [← e] at g1
    rw [g1, ok_bind]
  · refine partial_of_loop (pw := 64) (k := (post.length + 1 + 63) / 64) rfl (by omega) (by omega) rfl ?_ g2 ?_ g5 ?_
    · omega
    · omega
    · rw [g6]; simp

/-- The digit loop of `parse_base_16` on a malformed string. -/
theorem parseMagnitude_fails16 {m : Mode} {w p rest : Nat} {out : List Word} {s : List Byte} (hw : 128 < w)
    (hl : out.length = (w + 63) / 64) (h : FailsAfter 16 (numeralDigits s) p rest)
    (hlen : 4 * (numeralDigits s).length ≤ 64 * out.length) (hlt : 4 * (numeralDigits s).length < 2 ^ 32) :
    ∃ o, parseMagnitude m (stripMinus s) 16 out w = ok (o, .error .invalidDigit) ∧ o.length = out.length ∧
      wordsVal o = partialMagnitude 4 p (rest + 1) (numeralDigits s).length (wordsVal out) := by
  have hU : (U32 : Nat) = 4294967296 := rfl
  have hU' : (U64 : Nat) = 18446744073709551616 := rfl
  obtain ⟨hs, hs', hp⟩ := strip_of_fails h
  obtain ⟨pre, c, post, e, h1, h2, rfl⟩ := h
  have elen : (numeralDigits s).length = pre.length + (post.length + 1) := by rw [e]; simp
  have hdc : divCeil ((numeralDigits s).length * 4) BITS = (4 * (numeralDigits s).length + 63) / 64 := by
    show ((numeralDigits s).length * 4 + 63) / 64 = _
    rw [Nat.mul_comm]
  obtain ⟨o, g1, g2, g3, g4, g5, g6⟩ := parseLoop_fails (m := m) (bits := 4) (pw := 16) rfl (dv := hexDigitValue)
    hexDigitValue_eq (n := (numeralDigits s).length) (by omega) h2 post rfl pre 0 out
    ((4 * (numeralDigits s).length + 63) / 64 - 1) 0#64 p (by omega) (by omega) (fun _ => by omega) (fun h => by omega)
    (by simp [Nat.two_pow_pos]) h1
  refine ⟨o, ?_, g2, ?_⟩
  · rw [parseMagnitude_of_wide hw hl, if_neg hp, if_neg (by decide), if_neg (by decide), if_pos rfl,
      show stripPlus (stripMinus s) = numeralDigits s from rfl]
    unfold parseBase16
    dsimp only
    rw [Nat.mod_eq_of_lt (show (numeralDigits s).length < U32 by omega), mulC_ok (by omega), ok_bind, hdc,
      subC_ok (by omega), ok_bind]
    rw [← e] at g1
    rw [g1, ok_bind]
  · refine partial_of_loop (pw := 16) (k := (post.length + 1 + 15) / 16) rfl (by omega) (by omega) rfl ?_ g2 ?_ g5 ?_
    · omega
    · omega
    · rw [g6]; simp

/-- `parse_base_16` on a malformed string that is too long. -/
theorem parseMagnitude_long16 {m : Mode} {w p rest : Nat} {out : List Word} {s : List Byte} (hw : 128 < w)
    (hl : out.length = (w + 63) / 64) (h : FailsAfter 16 (numeralDigits s) p rest)
    (hlen : 64 * out.length < 4 * (numeralDigits s).length) (hlt : 4 * (numeralDigits s).length < 2 ^ 32) :
    parseMagnitude m (stripMinus s) 16 out w =
      if 16 * (((numeralDigits s).length - 1) / 16) ≤ rest then ok (out, .error .invalidDigit) else panic .bounds := by
  have hU : (U32 : Nat) = 4294967296 := rfl
  have hU' : (U64 : Nat) = 18446744073709551616 := rfl
  obtain ⟨hs, hs', hp⟩ := strip_of_fails h
  obtain ⟨pre, c, post, e, h1, h2, rfl⟩ := h
  have elen : (numeralDigits s).length = pre.length + (post.length + 1) := by rw [e]; simp
  have hdc : divCeil ((numeralDigits s).length * 4) BITS = (4 * (numeralDigits s).length + 63) / 64 := by
    show ((numeralDigits s).length * 4 + 63) / 64 = _
    rw [Nat.mul_comm]
  have hoi : (4 * (numeralDigits s).length + 63) / 64 - 1 = ((numeralDigits s).length - 1) / 16 := by omega
  have hloop := parseLoop_fails_long (m := m) (bits := 4) (pw := 16) (dv := hexDigitValue)
      hexDigitValue_eq (n := (numeralDigits s).length) (by omega) h2 post (out := out)
      (outIi := ((numeralDigits s).length - 1) / 16) (by omega) pre 0 0#64 (by omega) (fun _ => rfl) (fun h => by omega) ⟨_, h1⟩
  rw [parseMagnitude_of_wide hw hl, if_neg hp, if_neg (by decide), if_neg (by decide), if_pos rfl,
    show stripPlus (stripMinus s) = numeralDigits s from rfl]
  unfold parseBase16
  dsimp only
  rw [Nat.mod_eq_of_lt (show (numeralDigits s).length < U32 by omega), mulC_ok (by omega), ok_bind, hdc,
    subC_ok (by omega), ok_bind, hoi]
  rw [← e] at hloop
  rw [hloop]
  split <;> rfl

theorem magOk_stale {m : Mode} {radix w n k : Nat} {out : List Word} {s : List Byte} (hk : k ≤ out.length)
    (h : ∃ o, parseMagnitude m s radix out w = ok (o, .ok ()) ∧ o.length = out.length ∧ wordsVal (o.take k) = n ∧
      o.drop k = out.drop k) : MagOk m s radix out w (staleMagnitude k n (wordsVal out)) := by
  obtain ⟨o, h1, h2, h3, h4⟩ := h
  exact ⟨o, h1, h2, by rw [wordsVal_of_take_drop h2 (by omega) h4, h3]; rfl⟩

/-- A well-formed hexadecimal numeral that is too long. -/
theorem parseMagnitude_panics16 {m : Mode} {w n : Nat} {out : List Word} {s : List Byte} (hw : 128 < w)
    (hl : out.length = (w + 63) / 64) (hp : stripMinus s ≠ [ch '+'])
    (hv : digitsFrom 16 0 (numeralDigits s) = some n)
    (hlen : 64 * out.length < 4 * (numeralDigits s).length) (hlt : 4 * (numeralDigits s).length < 2 ^ 32) :
    parseMagnitude m (stripMinus s) 16 out w = panic .bounds := by
  have hU : (U32 : Nat) = 4294967296 := rfl
  have hU' : (U64 : Nat) = 18446744073709551616 := rfl
  have hdc : divCeil ((numeralDigits s).length * 4) BITS = (4 * (numeralDigits s).length + 63) / 64 := by
    show ((numeralDigits s).length * 4 + 63) / 64 = _
    rw [Nat.mul_comm]
  rw [parseMagnitude_of_wide hw hl, if_neg hp, if_neg (by decide), if_neg (by decide), if_pos rfl,
    show stripPlus (stripMinus s) = numeralDigits s from rfl]
  unfold parseBase16
  dsimp only
  rw [Nat.mod_eq_of_lt (by omega), mulC_ok (by omega), ok_bind, hdc, subC_ok (by omega), ok_bind,
    parseLoop_panics (bits := 4) (pw := 16) hexDigitValue_eq (by omega) (by omega) (by omega) _ 0 0#64 0 _
      (by omega) (by omega) (fun _ => by omega) (fun h => by omega) hv]
  rfl

/-- **C88**: the outcome of `assign_from_str_radix` for any destination, string and radix, in both build modes. (Above 128 bits
the digit count must fit into the 32 bits the code keeps for it, `4 * digits` for hexadecimal.) -/
theorem C88_assign_total (m : Mode) (radix w old : Nat) (v : BitVecValue) (s : List Byte) (hv : Raw v w old)
    (hbin : 128 < w → radix = 2 → (numeralDigits s).length < 2 ^ 32)
    (hhex : 128 < w → radix = 16 → 4 * (numeralDigits s).length < 2 ^ 32) :
    Leaves w (BitVecValue.assignFromStrRadix m v s radix) (assignOutcome radix w old s) := by
  have hv0 := hv
  obtain ⟨hw, hwe, hl, hval⟩ := hv
  unfold assignOutcome
  dsimp only
  by_cases hs : s = []
  · subst hs
    rw [if_pos rfl]
    exact assign_keeps hv0 rfl
  rw [if_neg hs]
  by_cases h0 : w = 0
  · subst h0
    rw [if_pos rfl]
    have e : (if s.head? == some (ch '-') then s.drop 1 else s) = stripMinus s := by
      unfold stripMinus
      simp only [beq_iff_eq, List.drop_one]
    by_cases h : stripMinus s = [ch '0']
    · rw [if_pos h]
      apply assign_keeps hv0
      unfold Strings.fromStrRadix
      rw [if_neg hs]
      dsimp only
      rw [e, if_pos hwe, if_pos h]
    · rw [if_neg h]
      apply assign_keeps hv0
      unfold Strings.fromStrRadix
      rw [if_neg hs]
      dsimp only
      rw [e, if_pos hwe, if_neg h]
  rw [if_neg h0]
  have h1 : 1 ≤ w := by omega
  by_cases hs' : stripMinus s = []
  · rw [if_pos hs']
    exact assign_keeps hv0 (fromStrRadix_minus (by omega) hs hs')
  rw [if_neg hs']
  -- what a failing magnitude parse means
  have herr : ∀ {o e n}, parseMagnitude m (stripMinus s) radix v.words w = ok (o, .error e) → o.length = v.words.length →
      wordsVal o = n → ∃ r, BitVecValue.assignFromStrRadix m v s radix = ok (r, .error e) ∧ Raw r w n := by
    intro o e n hm h2 h3
    rw [← hwe] at hm
    exact ⟨{ v with words := o }, assignFromStrRadix_eq (fromStrRadix_err (by omega) hs hs' hm), hw, hwe, h2.trans hl, h3⟩
  have hpan : ∀ {p}, parseMagnitude m (stripMinus s) radix v.words w = panic p →
      Panics (BitVecValue.assignFromStrRadix m v s radix) := by
    intro p hm
    rw [← hwe] at hm
    exact assign_panics (fromStrRadix_panic (by omega) hs hs' hm)
  have hplus : numeralDigits s = [] → stripMinus s = [ch '+'] := by
    intro hd
    apply Decidable.byContradiction
    intro hp
    exact stripPlus_ne_nil hs' hp hd
  have hplus' : numeralDigits s ≠ [] → stripMinus s ≠ [ch '+'] := by
    intro hd e; exact hd (by unfold numeralDigits; rw [e]; simp [stripPlus])
  have hsome : ∀ {r n}, numeralDigits s ≠ [] → digitsFrom r 0 (numeralDigits s) = some n →
      unsignedVal r (stripMinus s) = some n := by
    intro r n hd h
    show digitsVal r (numeralDigits s) = _
    unfold digitsVal
    rw [if_neg hd, h]
  by_cases h128 : w ≤ 128
  · rw [if_pos h128]
    by_cases hr : radix < 2 ∨ 36 < radix
    · rw [if_pos hr]
      exact hpan (parseMagnitude_bad_radix hr h1 h128 hl)
    rw [if_neg hr]
    by_cases hd : numeralDigits s = []
    · rw [if_pos hd]
      exact herr (by rw [hplus hd]; exact parseMagnitude_plus_small (by omega) (by omega) h1 h128 hl) rfl hval
    rw [if_neg hd]
    cases hdv : digitsFrom radix 0 (numeralDigits s) with
    | none =>
      obtain ⟨p, rest, hf⟩ := failsAfter_of_none hdv
      obtain ⟨e1, e2, e3⟩ := readDigits_fails hf
      have hm := parseMagnitude_fails (m := m) h1 h128 hl (by omega) (by omega) (s := stripMinus s) hf
      rw [hl] at hm
      rw [e1]
      by_cases hp : p < 2 ^ (64 * ((w + 63) / 64))
      · rw [if_pos hp] at hm
        rw [if_neg (by omega), if_neg e3]
        exact herr hm rfl hval
      · rw [if_neg hp] at hm
        rw [if_pos (by omega)]
        exact herr hm rfl hval
    | some n =>
      obtain ⟨k1, k2, -⟩ := parseMagnitude_small (m := m) h1 h128 hl (radix := radix) (by omega) (by omega) hs'
      rw [hl] at k1 k2
      rw [readDigits_some hdv]
      dsimp only
      by_cases hn : 2 ^ (64 * ((w + 63) / 64)) ≤ n
      · rw [if_pos hn]
        exact herr (k2 n (hsome hd hdv) hn) rfl hval
      · rw [if_neg hn, if_pos rfl]
        exact leaves_of_magOk hv0 h1 hs hs' (k1 n (hsome hd hdv) (by omega))
  rw [if_neg h128]
  have h129 : 128 < w := by omega
  by_cases hd : numeralDigits s = []
  · rw [if_pos hd]
    exact herr (by rw [parseMagnitude_of_wide h129 hl, if_pos (hplus hd)]) rfl hval
  rw [if_neg hd]
  have hp := hplus' hd
  by_cases h2 : radix = 2
  · subst h2
    rw [if_pos rfl]
    by_cases hlen : w < (numeralDigits s).length
    · rw [if_pos hlen]
      refine herr ?_ rfl hval
      have hU : (U32 : Nat) = 4294967296 := rfl
      have := hbin h129 rfl
      rw [parseMagnitude_of_wide h129 hl, if_neg hp, if_pos rfl]
      unfold parseBase2
      dsimp only
      rw [show stripPlus (stripMinus s) = numeralDigits s from rfl, Nat.mod_eq_of_lt (by omega), if_pos (by omega)]
    rw [if_neg hlen]
    cases hdv : digitsFrom 2 0 (numeralDigits s) with
    | none =>
      obtain ⟨p, rest, hf⟩ := failsAfter_of_none hdv
      obtain ⟨e1, e2, e3⟩ := readDigits_fails hf
      rw [if_neg e3, e1, e2]
      obtain ⟨o, g1, g2, g3⟩ := parseMagnitude_fails2 (m := m) h129 hw hl hf (by omega)
      exact herr g1 g2 (by rw [g3, hval])
    | some n =>
      rw [readDigits_some hdv]
      dsimp only
      rw [if_pos rfl, Nat.one_mul]
      have hm := magOk_stale (m := m) (radix := 2) (w := w) (by show ((numeralDigits s).length + 63) / 64 ≤ _; omega)
        ((parseMagnitude_wide2 (m := m) h129 hw hl hs' (by show (numeralDigits s).length ≤ w; omega)).1 n (hsome hd hdv))
      rw [hval] at hm
      exact leaves_of_magOk hv0 h1 hs hs' hm
  rw [if_neg h2]
  by_cases h16 : radix = 16
  · subst h16
    rw [if_pos rfl]
    have hlt := hhex h129 rfl
    cases hdv : digitsFrom 16 0 (numeralDigits s) with
    | none =>
      obtain ⟨p, rest, hf⟩ := failsAfter_of_none hdv
      obtain ⟨e1, e2, e3⟩ := readDigits_fails hf
      by_cases hlen : 4 * (numeralDigits s).length ≤ 64 * ((w + 63) / 64)
      · rw [if_pos hlen, if_neg e3, e1, e2]
        obtain ⟨o, g1, g2, g3⟩ := parseMagnitude_fails16 (m := m) h129 hl hf (by omega) hlt
        exact herr g1 g2 (by rw [g3, hval])
      · rw [if_neg hlen, e2]
        have h := parseMagnitude_long16 (m := m) h129 hl hf (by omega) hlt
        split at h
        · next hr => rw [if_pos (by omega)]; exact herr h rfl hval
        · next hr => rw [if_neg (by omega)]; exact hpan h
    | some n =>
      rw [readDigits_some hdv]
      dsimp only
      by_cases hlen : 4 * (numeralDigits s).length ≤ 64 * ((w + 63) / 64)
      · rw [if_pos hlen, if_pos rfl]
        have hm := magOk_stale (m := m) (radix := 16) (w := w) (by
            show (4 * (numeralDigits s).length + 63) / 64 ≤ _; omega)
          ((parseMagnitude_wide16 (m := m) h129 hl hs' (by show (4 * (numeralDigits s).length + 63) / 64 ≤ _; omega) hlt).1 n
            (hsome hd hdv))
        rw [hval] at hm
        exact leaves_of_magOk hv0 h1 hs hs' hm
      · rw [if_neg hlen, if_neg (by simp)]
        exact hpan (parseMagnitude_panics16 h129 hl hp hdv (by omega) hlt)
  rw [if_neg h16]
  refine hpan (p := .todo) ?_
  rw [parseMagnitude_of_wide h129 hl, if_neg hp, if_neg h2]
  by_cases h10 : radix = 10
  · rw [if_pos h10]
  · rw [if_neg h10, if_neg h16]

/-- Every kind of outcome, on a destination with all words set: a stored numeral above stale words, also negated; the stale low
word of a failed parse; an error that changes nothing. -/
example : Raw ⟨129, [BitVec.allOnes 64, BitVec.allOnes 64, BitVec.allOnes 64]⟩ 129 (2 ^ 192 - 1) ∧
    assignOutcome 16 129 (2 ^ 192 - 1) ("a".toList.map ch) = .stores (2 ^ 192 - 2 ^ 64 + 10) ∧
    assignOutcome 16 129 (2 ^ 192 - 1) ("-a".toList.map ch) = .stores (2 ^ 64 - 10) ∧
    assignOutcome 16 129 (2 ^ 192 - 1) ("123456789abcdef01x".toList.map ch) =
      .invalid (2 ^ 192 - 2 ^ 128 + 0x12 * 2 ^ 64 + (2 ^ 64 - 1)) ∧
    assignOutcome 2 129 (2 ^ 192 - 1) (List.replicate 130 (ch '0')) = .exceeds (2 ^ 192 - 1) ∧
    assignOutcome 10 129 (2 ^ 192 - 1) ("1".toList.map ch) = .panics ∧
    assignOutcome 10 8 255 ("-1".toList.map ch) = .stores 255 ∧ assignOutcome 10 8 77 [] = .stores 77 :=
  ⟨⟨by decide, rfl, rfl, by decide +kernel⟩, by decide +kernel⟩

/-! ## Fresh and reused destinations -/

theorem staleMagnitude_of_lt {k n old : Nat} (h : old < 2 ^ (64 * k)) : staleMagnitude k n old = n := by
  unfold staleMagnitude
  rw [Nat.div_eq_of_lt h, Nat.zero_mul, Nat.add_zero]

/-- The two specifications agree: parsing into a destination that holds 0 is `from_str_radix`. -/
theorem C88_fresh (radix w : Nat) (s : List Byte) (n : Nat) :
    assignOutcome radix w 0 s = .stores n ↔ parseOutcome radix w s = .stores n := by
  have hz : ∀ k x, staleMagnitude k x 0 = x := fun k x => staleMagnitude_of_lt (Nat.two_pow_pos _)
  unfold assignOutcome parseOutcome
  dsimp only
  simp only [hz]
  repeat' split
  all_goals simp_all

/-- When a reused destination gives the same result as a fresh one: if the digits reach all non-zero words of the destination,
in-place parsing stores what `from_str_radix` returns. (Up to 128 bits the digits always reach all words.) -/
theorem C88_reuse (radix w old : Nat) (s : List Byte) (n : Nat) (hs : s ≠ [])
    (h0 : w = 0 → old = 0)
    (h2 : 128 < w → radix = 2 → old < 2 ^ (64 * (((numeralDigits s).length + 63) / 64)))
    (h16 : 128 < w → radix = 16 → old < 2 ^ (64 * ((4 * (numeralDigits s).length + 63) / 64))) :
    assignOutcome radix w old s = .stores n ↔ parseOutcome radix w s = .stores n := by
  unfold assignOutcome parseOutcome
  dsimp only
  rw [if_neg hs, if_neg hs]
  by_cases hw : w = 0
  · rw [if_pos hw, if_pos hw, h0 hw]
    split <;> simp
  rw [if_neg hw, if_neg hw]
  split
  · simp
  by_cases h128 : w ≤ 128
  · rw [if_pos h128, if_pos h128]
    repeat' split
    all_goals simp_all
  · rw [if_neg h128, if_neg h128]
    split
    · simp
    by_cases e2 : radix = 2
    · rw [if_pos e2, if_pos e2, Nat.one_mul, staleMagnitude_of_lt (h2 (by omega) e2)]
      repeat' split
      all_goals simp_all
    rw [if_neg e2, if_neg e2]
    by_cases e16 : radix = 16
    · rw [if_pos e16, if_pos e16, staleMagnitude_of_lt (h16 (by omega) e16)]
      repeat' split
      all_goals simp_all
    · rw [if_neg e16, if_neg e16]
      simp

example : assignOutcome 16 129 (2 ^ 64 - 1) ("-a".toList.map ch) = .stores (2 ^ 129 - 10) ∧
    parseOutcome 16 129 ("-a".toList.map ch) = .stores (2 ^ 129 - 10) := by decide +kernel

end Baa
