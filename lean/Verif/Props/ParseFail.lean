import Verif.Props.ParseExact
import Verif.Proofs.BytesBig
import Verif.Spec.Text

/-!
# Malformed numerals, exactly

Which error a malformed numeral gives at every width, and what a failed in-place parse leaves in the destination (C37, C74).
-/

namespace Baa
open Res Strings

/-- A non-empty string that spells no number fails somewhere. -/
theorem failsAfter_of_none {radix : Nat} {s : List Byte} (h : digitsFrom radix 0 s = none) : ∃ p rest, FailsAfter radix s p rest := by
  have key : ∀ (s : List Byte) (acc : Nat), digitsFrom radix acc s = none →
      ∃ pre c post p, s = pre ++ c :: post ∧ digitsFrom radix acc pre = some p ∧ digitOf radix c = none := by
    intro s
    induction s with
    | nil => intro acc h; cases h
    | cons c s ih =>
      intro acc h
      rw [digitsFrom] at h
      cases hd : digitOf radix c with
      | none => exact ⟨[], c, s, acc, rfl, rfl, hd⟩
      | some d =>
        rw [hd] at h
        obtain ⟨pre, c', post, p, h1, h2, h3⟩ := ih _ h
        refine ⟨c :: pre, c', post, p, by rw [h1]; rfl, ?_, h3⟩
        rw [digitsFrom, hd]
        exact h2
  obtain ⟨pre, c, post, p, h1, h2, h3⟩ := key s 0 h
  exact ⟨p, post.length, pre, c, post, h1, h2, h3, rfl⟩

theorem FailsAfter.none {radix p rest : Nat} {s : List Byte} (h : FailsAfter radix s p rest) : digitsFrom radix 0 s = none := by
  obtain ⟨pre, c, post, rfl, h1, h2, -⟩ := h
  rw [digitsFrom_append, h1, Option.bind_some, digitsFrom, h2]

theorem FailsAfter.ne_nil {radix p rest : Nat} {s : List Byte} (h : FailsAfter radix s p rest) : s ≠ [] := by
  obtain ⟨pre, c, post, rfl, -⟩ := h
  simp

/-! ## Widths 1 to 128 -/

theorem stdParseLoop_fails {M radix : Nat} (hr : 0 < radix) (hr' : radix ≤ 36) {c : Byte} (hc : digitOf radix c = none)
    (post pre : List Byte) : ∀ (acc p : Nat), acc < M → digitsFrom radix acc pre = some p →
      stdParseLoop M radix acc (pre ++ c :: post) = .error (if p < M then .invalidDigit else .posOverflow) := by
  induction pre with
  | nil =>
    intro acc p ha hp
    cases hp
    rw [List.nil_append, stdParseLoop, toDigit_eq hr', hc, if_pos ha]
  | cons d pre ih =>
    intro acc p ha hp
    rw [digitsFrom] at hp
    rw [List.cons_append, stdParseLoop, toDigit_eq hr']
    cases hd : digitOf radix d with
    | none => rw [hd] at hp; cases hp
    | some v =>
      rw [hd] at hp
      dsimp only at hp ⊢
      have hle : acc * radix + v ≤ p := by
        rw [digitsFrom_acc] at hp
        cases hq : digitsFrom radix 0 pre with
        | none => rw [hq] at hp; cases hp
        | some q =>
          rw [hq, Option.map_some, Option.some.injEq] at hp
          have : (acc * radix + v) * 1 ≤ (acc * radix + v) * radix ^ pre.length :=
            Nat.mul_le_mul_left _ (Nat.pow_pos hr)
          omega
      by_cases h1 : acc * radix ≥ M
      · rw [if_pos h1, if_neg (by omega)]
      · rw [if_neg h1]
        by_cases h2 : acc * radix + v ≥ M
        · rw [if_pos h2, if_neg (by omega)]
        · rw [if_neg h2]
          exact ih _ _ (by omega) hp

theorem stdFromStrRadix_fails {M radix : Nat} (hr : 2 ≤ radix) (hr' : radix ≤ 36) (hM : 0 < M) {s : List Byte} {p rest : Nat}
    (h : FailsAfter radix (stripPlus s) p rest) :
    stdFromStrRadix M radix s = ok (.error (if p < M then .invalidDigit else .posOverflow)) := by
  have hne := h.ne_nil
  obtain ⟨pre, c, post, h1, h2, h3, -⟩ := h
  have key := stdParseLoop_fails (M := M) (by omega) hr' h3 post pre 0 p hM h2
  rw [← h1] at key
  unfold stdFromStrRadix
  rw [if_neg (by omega)]
  match s, hne with
  | [], hne => exact absurd rfl hne
  | [x], hne =>
    dsimp only
    by_cases hx : x = ch '+'
    · subst hx; exact absurd rfl hne
    · have hsp : stripPlus [x] = [x] := by unfold stripPlus; simp [hx]
      rw [hsp] at key h1
      by_cases hm : x = ch '-'
      · rw [if_pos (Or.inr hm)]
        have hpre : pre = [] := by
          cases pre with
          | nil => rfl
          | cons y pre => simp at h1
        subst hpre
        cases h2
        rw [if_pos hM]
      · rw [if_neg (by simp [hx, hm]), key]
  | x :: y :: s, _ =>
    dsimp only
    by_cases hx : x = ch '+'
    · rw [if_pos hx]
      have hsp : stripPlus (x :: y :: s) = y :: s := by unfold stripPlus; simp [hx]
      rw [hsp] at key
      rw [key]
    · rw [if_neg hx]
      have hsp : stripPlus (x :: y :: s) = x :: y :: s := by unfold stripPlus; simp [hx]
      rw [hsp] at key
      rw [key]

theorem parseMagnitude_fails {m : Mode} {w radix : Nat} {out : List Word} {s : List Byte} (h0 : 1 ≤ w) (hw : w ≤ 128)
    (hl : out.length = (w + 63) / 64) (hr : 2 ≤ radix) (hr' : radix ≤ 36) {p rest : Nat}
    (h : FailsAfter radix (stripPlus s) p rest) :
    parseMagnitude m s radix out w =
      ok (out, .error (if p < 2 ^ (64 * out.length) then .invalidDigit else .exceedsWidth)) := by
  have hc : out.length = 1 ∨ out.length = 2 := by omega
  match out, hl, hc with
  | [o], hl, _ =>
    have hle : w ≤ 64 := by simp at hl; omega
    rw [parseMagnitude, debugAssert_decide_of hle, ok_bind, stdFromStrRadix_fails hr hr' (by decide) h, ok_bind]
    show ok ([o], Except.error (translateErr (if p < U64 then _ else _))) = ok ([o], .error (if p < U64 then _ else _))
    split <;> rfl
  | [o1, o2], hl, _ =>
    rw [parseMagnitude, debugAssert_decide_of hw, ok_bind, stdFromStrRadix_fails hr hr' (by decide) h, ok_bind]
    have hM : (2 : Nat) ^ (64 * [o1, o2].length) = U128 := by
      simp only [List.length_cons, List.length_nil]
    rw [hM]
    dsimp only
    split <;> rfl

theorem strip_of_fails {radix p rest : Nat} {s : List Byte} (h : FailsAfter radix (numeralDigits s) p rest) :
    s ≠ [] ∧ stripMinus s ≠ [] ∧ stripMinus s ≠ [ch '+'] := by
  have hd := h.ne_nil
  have hs' : stripMinus s ≠ [] := by
    intro e; exact hd (by unfold numeralDigits; rw [e]; rfl)
  refine ⟨?_, hs', ?_⟩
  · intro e; exact hs' (by rw [e]; rfl)
  · intro e; exact hd (by unfold numeralDigits; rw [e]; simp [stripPlus])

/-- **C37, exact, widths 1 to 128**: a malformed numeral is an invalid digit unless the digits before the first bad character
already overflow the words, in which case it exceeds the width. -/
theorem C37_small_malformed (m : Mode) {radix w : Nat} (hr : 2 ≤ radix) (hr' : radix ≤ 36) (h0 : 1 ≤ w) (hw : w ≤ 128)
    {s : List Byte} {p rest : Nat} (h : FailsAfter radix (numeralDigits s) p rest) :
    BitVecValue.fromStrRadix m s radix w =
      ok (.error (if p < 2 ^ (64 * ((w + 63) / 64)) then .invalidDigit else .exceedsWidth)) := by
  obtain ⟨hs, hs', -⟩ := strip_of_fails h
  have hm := parseMagnitude_fails (m := m) h0 hw (zero_words_length w) hr hr' (s := stripMinus s) h
  rw [zero_words_length] at hm
  exact fromStrRadix_eq_err (fromStrRadix_err h0 hs hs' hm)

/-- **C37, exact, widths 1 to 128**: a sign without digits is an invalid digit. -/
theorem C37_small_sign_only (m : Mode) {radix w : Nat} (hr : 2 ≤ radix) (hr' : radix ≤ 36) (h0 : 1 ≤ w) (hw : w ≤ 128)
    {s : List Byte} (hs : s ≠ []) (hd : numeralDigits s = []) :
    BitVecValue.fromStrRadix m s radix w = ok (.error .invalidDigit) := by
  by_cases hs' : stripMinus s = []
  · exact fromStrRadix_eq_err (fromStrRadix_minus h0 hs hs')
  · have hp : stripMinus s = [ch '+'] := by
      apply Decidable.byContradiction
      intro hp
      exact stripPlus_ne_nil hs' hp hd
    have hstd : ∀ M, stdFromStrRadix M radix [ch '+'] = ok (.error .invalidDigit) := by
      intro M
      unfold stdFromStrRadix
      rw [if_neg (by omega)]
      rfl
    apply fromStrRadix_eq_err (o := (BitVecValue.zero w).words) (fromStrRadix_err h0 hs hs' ?_)
    rw [hp]
    have hl := zero_words_length w
    generalize (BitVecValue.zero w).words = out at hl
    have hc : out.length = 1 ∨ out.length = 2 := by omega
    match out, hl, hc with
    | [o], hl, _ =>
      have hle : w ≤ 64 := by simp at hl; omega
      rw [parseMagnitude, debugAssert_decide_of hle, ok_bind, hstd, ok_bind]
      rfl
    | [o1, o2], hl, _ =>
      rw [parseMagnitude, debugAssert_decide_of hw, ok_bind, hstd, ok_bind]
      rfl

/-- **C37, exact, widths 1 to 128**: a radix outside 2 to 36 panics on every string with something after the `-`. -/
theorem C37_bad_radix_panics (m : Mode) {radix w : Nat} (hr : radix < 2 ∨ 36 < radix) (h0 : 1 ≤ w) (hw : w ≤ 128)
    {s : List Byte} (hs' : stripMinus s ≠ []) : BitVecValue.fromStrRadix m s radix w = panic .explicit := by
  have hs : s ≠ [] := by
    intro e; exact hs' (by rw [e]; rfl)
  have hstd : ∀ M t, stdFromStrRadix M radix t = panic .explicit := by
    intro M t
    unfold stdFromStrRadix
    rw [if_pos (by omega)]
  apply fromStrRadix_eq_panic (fromStrRadix_panic h0 hs hs' ?_)
  have hl := zero_words_length w
  generalize (BitVecValue.zero w).words = out at hl
  have hc : out.length = 1 ∨ out.length = 2 := by omega
  match out, hl, hc with
  | [o], hl, _ =>
    have hle : w ≤ 64 := by simp at hl; omega
    rw [parseMagnitude, debugAssert_decide_of hle, ok_bind, hstd]
    rfl
  | [o1, o2], hl, _ =>
    rw [parseMagnitude, debugAssert_decide_of hw, ok_bind, hstd]
    rfl

example : FailsAfter 10 (numeralDigits ("-18446744073709551616x".toList.map ch)) 18446744073709551616 0 ∧
    BitVecValue.fromStrRadix .debug ("-18446744073709551616x".toList.map ch) 10 8 = ok (.error .exceedsWidth) ∧
    BitVecValue.fromStrRadix .debug ("-18446744073709551616x".toList.map ch) 10 65 = ok (.error .invalidDigit) ∧
    BitVecValue.fromStrRadix .debug ("10".toList.map ch) 37 8 = panic .explicit :=
  ⟨⟨"18446744073709551616".toList.map ch, ch 'x', [], by decide +kernel, by decide +kernel, by decide +kernel, rfl⟩,
    by decide +kernel, by decide +kernel, by decide +kernel⟩

/-! ## Widths above 128: C74 -/

/-- The optional flush at the start of each round of the digit loop. -/
theorem parseLoop_flush {m : Mode} {pw n ii outIi : Nat} {out : List Word} {word : Word} {rest : Nat}
    (hn : n < U64) (h1 : ii + (rest + 1) = n) (h3 : outIi < out.length)
    (h4 : ii = 0 → outIi = (n - 1) / pw) (h5 : 0 < ii → outIi = (rest + 1) / pw) {β : Type}
    (k : List Word × Nat × Word → Res β) :
    (rest + 1 = pw * outIi ∧ 0 < outIi ∧ 0 < ii ∧
      ((if ii > 0 then do
            let k ← addC m U64 rest 1
            if k % pw = 0 then
              let out ← setIdx out outIi word
              let outIi ← subC m U64 outIi 1
              ok (out, outIi, 0#64)
            else ok (out, outIi, word)
          else ok (out, outIi, word)) >>= k) = k (out.set outIi word, outIi - 1, 0#64)) ∨
    (outIi = rest / pw ∧
      ((if ii > 0 then do
            let k ← addC m U64 rest 1
            if k % pw = 0 then
              let out ← setIdx out outIi word
              let outIi ← subC m U64 outIi 1
              ok (out, outIi, 0#64)
            else ok (out, outIi, word)
          else ok (out, outIi, word)) >>= k) = k (out, outIi, word)) := by
  by_cases hii : ii > 0
  · have h5' := h5 hii
    by_cases hf : (rest + 1) % pw = 0
    · have hdiv : rest + 1 = pw * outIi := by
        rw [h5', Nat.mul_div_cancel' (Nat.dvd_of_mod_eq_zero hf)]
      have hpos : 0 < outIi := Nat.pos_of_ne_zero fun e => by rw [e] at hdiv; simp at hdiv
      refine .inl ⟨hdiv, hpos, hii, ?_⟩
      rw [if_pos hii, addC_ok (by show _ < U64; omega), ok_bind, if_pos hf, setIdx_ok h3, ok_bind,
        subC_ok (by omega), ok_bind, ok_bind]
    · refine .inr ⟨?_, ?_⟩
      · rw [h5', Nat.succ_div_of_not_dvd (fun hdvd => hf (Nat.mod_eq_zero_of_dvd hdvd))]
      · rw [if_pos hii, addC_ok (by show _ < U64; omega), ok_bind, if_neg hf, ok_bind]
  · refine .inr ⟨?_, by rw [if_neg hii, ok_bind]⟩
    rw [h4 (by omega)]; congr 1; omega

/-- Appending a digit to the word. -/
theorem parseLoop_word {bits pw outIi d : Nat} (hbp : bits * pw = 64) {rest : Nat} (h : outIi = rest / pw) {word : Word}
    (hd : d < 2 ^ bits) (hw : word.toNat * 2 ^ (bits * (rest + 1)) < 2 ^ (64 * (outIi + 1))) :
    ((word <<< bits) ||| BitVec.ofNat 64 d).toNat = word.toNat * 2 ^ bits + d ∧
    ((word <<< bits) ||| BitVec.ofNat 64 d).toNat * 2 ^ (bits * rest) < 2 ^ (64 * (outIi + 1)) := by
  have hpw : 0 < pw := Nat.pos_of_ne_zero fun h => by rw [h] at hbp; omega
  have hble : bits ≤ 64 := by
    have : bits * 1 ≤ bits * pw := Nat.mul_le_mul_left _ hpw
    omega
  have hd64 : d < 2 ^ 64 := Nat.lt_of_lt_of_le hd (Nat.pow_le_pow_right (by decide) hble)
  have e : bits * (rest + 1) = bits + bits * rest := by rw [Nat.mul_succ]; omega
  have hwlt : word.toNat * 2 ^ bits < 2 ^ 64 := by
    have hle : bits * rest + 64 ≥ 64 * (outIi + 1) := by
      have : pw * outIi ≤ rest := by rw [h]; exact Nat.mul_div_le _ _
      have := Nat.mul_le_mul_left bits this
      rw [← Nat.mul_assoc, hbp] at this
      omega
    rw [e, Nat.pow_add, ← Nat.mul_assoc] at hw
    have h64 : 2 ^ (64 * (outIi + 1)) ≤ 2 ^ 64 * 2 ^ (bits * rest) := by
      rw [← Nat.pow_add]; exact Nat.pow_le_pow_right (by decide) (by omega)
    exact Nat.lt_of_mul_lt_mul_right (Nat.lt_of_lt_of_le hw h64)
  have hw2 : ((word <<< bits) ||| BitVec.ofNat 64 d).toNat = word.toNat * 2 ^ bits + d := by
    rw [BitVec.toNat_or, BitVec.toNat_shiftLeft, BitVec.toNat_ofNat, Nat.mod_eq_of_lt hd64, Nat.shiftLeft_eq,
      Nat.mod_eq_of_lt hwlt, ← Nat.shiftLeft_eq, ← Nat.shiftLeft_add_eq_or_of_lt hd, Nat.shiftLeft_eq]
  refine ⟨hw2, ?_⟩
  rw [hw2]
  have hle : bits * (rest + 1) ≤ 64 * (outIi + 1) := by
    have h7 : rest < pw * (outIi + 1) := by
      rw [h]; exact Nat.lt_mul_div_succ _ hpw
    have := Nat.mul_le_mul_left bits h7
    rw [← Nat.mul_assoc, hbp] at this
    exact this
  obtain ⟨t, ht⟩ : ∃ t, 64 * (outIi + 1) = bits * (rest + 1) + t := ⟨_, (Nat.add_sub_of_le hle).symm⟩
  rw [ht, Nat.pow_add, Nat.mul_comm (2 ^ (bits * (rest + 1)))] at hw ⊢
  have hw' : word.toNat < 2 ^ t := Nat.lt_of_mul_lt_mul_right hw
  rw [e, Nat.pow_add, ← Nat.mul_assoc]
  apply Nat.mul_lt_mul_of_pos_right _ (Nat.two_pow_pos _)
  have : (word.toNat + 1) * 2 ^ bits ≤ 2 ^ t * 2 ^ bits := Nat.mul_le_mul_right _ hw'
  rw [Nat.add_mul, Nat.one_mul] at this
  omega

/-- The digit loop on a malformed string: with `t` characters from the bad one on, the `k = ⌈t / pw⌉` low words are not reached;
the words above hold the digits before the bad character. -/
theorem parseLoop_fails {m : Mode} {bits pw : Nat} (hbp : bits * pw = 64) {dv : Byte → Option Nat}
    (hdv : ∀ c, dv c = digitOf (2 ^ bits) c) {n : Nat} (hn : n < U64) {c : Byte} (hc : digitOf (2 ^ bits) c = none)
    (post : List Byte) {k : Nat} (hk : k = (post.length + 1 + (pw - 1)) / pw) (pre : List Byte) :
    ∀ (ii : Nat) (out : List Word) (outIi : Nat) (word : Word) (p : Nat),
      ii + (pre.length + (post.length + 1)) = n → outIi < out.length →
      (ii = 0 → outIi = (n - 1) / pw) → (0 < ii → outIi = (pre.length + (post.length + 1)) / pw) →
      word.toNat * 2 ^ (bits * (pre.length + (post.length + 1))) < 2 ^ (64 * (outIi + 1)) →
      digitsFrom (2 ^ bits) 0 pre = some p →
      ∃ out', parseLoop m bits pw dv n ii out outIi word (pre ++ c :: post) = ok (out', .error .invalidDigit) ∧
        out'.length = out.length ∧ k ≤ outIi + 1 ∧ out'.take k = out.take k ∧
        out'.drop (outIi + 1) = out.drop (outIi + 1) ∧
        wordsVal (out'.take (outIi + 1)) = wordsVal (out.take k) +
          2 ^ (64 * k) * ((word.toNat * 2 ^ (bits * pre.length) + p) * 2 ^ (bits * (post.length + 1)) / 2 ^ (64 * k)) := by
  have hpw : 0 < pw := Nat.pos_of_ne_zero fun h => by rw [h] at hbp; omega
  have kdiv : ∀ x, post.length + 1 = pw * x → k = x := by
    intro x hx
    rw [hk, hx, Nat.mul_add_div hpw, Nat.div_eq_of_lt (by omega), Nat.add_zero]
  have kdiv' : k = post.length / pw + 1 := by
    rw [hk, show post.length + 1 + (pw - 1) = post.length + pw by omega, Nat.add_div_right _ hpw]
  induction pre with
  | nil =>
    intro ii out outIi word p h1 h3 h4 h5 h6 hp
    cases hp
    simp only [List.length_nil, Nat.zero_add, List.nil_append, Nat.mul_zero, Nat.pow_zero, Nat.mul_one, Nat.add_zero] at h1 h5 h6 ⊢
    have hr : n - ii - 1 = post.length := by omega
    rw [parseLoop, subC_ok (by omega), ok_bind, subC_ok (by omega), ok_bind, hr]
    rcases parseLoop_flush (m := m) (word := word) hn (by omega) h3 h4 h5 (fun x => match dv c with
      | none => ok (x.1, .error .invalidDigit)
      | some v => parseLoop m bits pw dv n (ii + 1) x.1 x.2.1 ((x.2.2 <<< bits) ||| BitVec.ofNat 64 v) post) with
      ⟨hdiv, hpos, hii, he⟩ | ⟨hidx, he⟩
    · have hke := kdiv _ hdiv
      refine ⟨out.set outIi word, ?_, by simp, by omega, ?_, ?_, ?_⟩
      · refine Eq.trans he ?_
        simp only [hdv, hc]
      · rw [hke, List.take_set_of_le (Nat.le_refl _)]
      · rw [List.drop_set_of_lt (by omega)]
      · rw [hke, List.take_add, List.take_set_of_le (Nat.le_refl _), List.drop_set, if_neg (by omega), Nat.sub_self,
          set_zero_eq _ _ (by rw [Ne, List.drop_eq_nil_iff]; omega), List.take_succ_cons, List.take_zero, wordsVal_append,
          Arith.wordsVal_singleton, List.length_take, Nat.min_eq_left (by omega), hdiv, ← Nat.mul_assoc, hbp,
          Nat.mul_div_cancel _ (Nat.two_pow_pos _)]
    · have hke : k = outIi + 1 := by omega
      refine ⟨out, ?_, rfl, by omega, rfl, rfl, ?_⟩
      · refine Eq.trans he ?_
        simp only [hdv, hc]
      · rw [hke, Nat.div_eq_of_lt h6]
        simp
  | cons d pre ih =>
    intro ii out outIi word p h1 h3 h4 h5 h6 hp
    have elen : (d :: pre).length + (post.length + 1) = (pre.length + (post.length + 1)) + 1 := by
      rw [List.length_cons]; omega
    rw [elen] at h1 h5 h6
    generalize hR : pre.length + (post.length + 1) = R at *
    have hlen2 : (pre ++ c :: post).length = R := by rw [← hR]; simp
    have hr : n - ii - 1 = R := by omega
    rw [digitsFrom] at hp
    cases hd : digitOf (2 ^ bits) d with
    | none => rw [hd] at hp; cases hp
    | some v =>
      rw [hd] at hp
      simp only [Nat.zero_mul, Nat.zero_add] at hp
      rw [digitsFrom_acc] at hp
      cases hq : digitsFrom (2 ^ bits) 0 pre with
      | none => rw [hq] at hp; cases hp
      | some q =>
        rw [hq, Option.map_some, Option.some.injEq, ← Nat.pow_mul] at hp
        have hvlt := digitOf_lt hd
        have epow : (2 : Nat) ^ (bits * (d :: pre).length) = 2 ^ bits * 2 ^ (bits * pre.length) := by
          rw [List.length_cons, Nat.mul_succ, Nat.add_comm, Nat.pow_add]
        rw [List.cons_append, parseLoop, subC_ok (by omega), ok_bind, subC_ok (by omega), ok_bind, hr]
        rcases parseLoop_flush (m := m) (word := word) hn (by omega) h3 h4 h5 (fun x => match dv d with
          | none => ok (x.1, .error .invalidDigit)
          | some v => parseLoop m bits pw dv n (ii + 1) x.1 x.2.1 ((x.2.2 <<< bits) ||| BitVec.ofNat 64 v) (pre ++ c :: post)) with
          ⟨hdiv, hpos, hii, he⟩ | ⟨hidx, he⟩
        · have hidx : outIi - 1 = R / pw := by
            have e : R = pw * (outIi - 1) + (pw - 1) := by
              have : pw * outIi = pw * (outIi - 1) + pw := by
                rw [← Nat.mul_succ]; congr 1; omega
              omega
            rw [e, Nat.mul_add_div hpw, Nat.div_eq_of_lt (by omega)]; omega
          obtain ⟨hw1, hw2⟩ := parseLoop_word (word := 0#64) hbp hidx hvlt (by simp [Nat.two_pow_pos])
          obtain ⟨out', g1, g2, g3, g4, g5, g6⟩ := ih (ii + 1) (out.set outIi word) (outIi - 1) _ q (by omega)
            (by simp; omega) (fun e => by omega) (fun _ => hidx) hw2 hq
          rw [show outIi - 1 + 1 = outIi by omega] at g3 g5 g6
          have hdrop : out'.drop outIi = word :: out.drop (outIi + 1) := by
            rw [g5, List.drop_set, if_neg (by omega), Nat.sub_self,
              set_zero_eq _ _ (by rw [Ne, List.drop_eq_nil_iff]; omega), List.drop_drop]
          have htake : (out.set outIi word).take k = out.take k := List.take_set_of_le (by omega)
          rw [htake] at g4 g6
          simp only [List.length_set] at g2
          refine ⟨out', ?_, g2, by omega, g4, ?_, ?_⟩
          · refine Eq.trans he ?_
            simp only [hdv, hd]
            exact g1
          · rw [show out'.drop (outIi + 1) = (out'.drop outIi).drop 1 by rw [List.drop_drop], hdrop]
            rfl
          · rw [List.take_add, hdrop, List.take_succ_cons, List.take_zero, wordsVal_append, Arith.wordsVal_singleton,
              List.length_take, Nat.min_eq_left (by omega), g6, hw1]
            have e64 : bits * (d :: pre).length + bits * (post.length + 1) = 64 * outIi := by
              rw [← Nat.mul_add, elen, hdiv, ← Nat.mul_assoc, hbp]
            have hsplit : (word.toNat * 2 ^ (bits * (d :: pre).length) + p) * 2 ^ (bits * (post.length + 1)) =
                p * 2 ^ (bits * (post.length + 1)) + 2 ^ (64 * k) * (2 ^ (64 * (outIi - k)) * word.toNat) := by
              have : 2 ^ (64 * k) * (2 ^ (64 * (outIi - k)) * word.toNat) =
                  word.toNat * 2 ^ (bits * (d :: pre).length) * 2 ^ (bits * (post.length + 1)) := by
                rw [Nat.mul_assoc word.toNat, ← Nat.pow_add, e64, ← Nat.mul_assoc, ← Nat.pow_add, Nat.mul_comm]
                congr 2; omega
              rw [Nat.add_mul, this, Nat.add_comm]
            rw [hsplit, Nat.add_mul_div_left _ _ (Nat.two_pow_pos _), Nat.mul_add (2 ^ (64 * k)),
              ← Nat.mul_assoc (2 ^ (64 * k)) (2 ^ (64 * (outIi - k))), ← Nat.pow_add,
              show 64 * k + 64 * (outIi - k) = 64 * outIi by omega]
            have hp' : (BitVec.toNat 0#64 * 2 ^ bits + v) * 2 ^ (bits * pre.length) + q = p := by simpa using hp
            rw [hp']
            omega
        · obtain ⟨hw1, hw2⟩ := parseLoop_word (word := word) hbp hidx hvlt h6
          obtain ⟨out', g1, g2, g3, g4, g5, g6⟩ := ih (ii + 1) out outIi _ q (by omega)
            h3 (fun e => by omega) (fun _ => hidx) hw2 hq
          refine ⟨out', ?_, g2, g3, g4, g5, ?_⟩
          · refine Eq.trans he ?_
            simp only [hdv, hd]
            exact g1
          · rw [g6, hw1, epow, ← hp, Nat.add_mul (word.toNat * 2 ^ bits) v, Nat.mul_assoc word.toNat, Nat.add_assoc]

/-- The digit loop on a malformed string that is too long for the output: an error if the bad character is among the digits of
the top word, a panic otherwise. -/
theorem parseLoop_fails_long {m : Mode} {bits pw : Nat} {dv : Byte → Option Nat}
    (hdv : ∀ c, dv c = digitOf (2 ^ bits) c) {n : Nat} (hn : n < U64) {c : Byte} (hc : digitOf (2 ^ bits) c = none)
    (post : List Byte) {out : List Word} {outIi : Nat} (h3 : out.length ≤ outIi) (pre : List Byte) :
    ∀ (ii : Nat) (word : Word), ii + (pre.length + (post.length + 1)) = n →
      (ii = 0 → outIi = (n - 1) / pw) → (0 < ii → outIi = (pre.length + (post.length + 1)) / pw) →
      (∃ v, digitsFrom (2 ^ bits) 0 pre = some v) →
      parseLoop m bits pw dv n ii out outIi word (pre ++ c :: post) =
        if pw * outIi ≤ post.length then ok (out, .error .invalidDigit) else panic .bounds := by
  have hset : ∀ word, setIdx out outIi word = panic .bounds := by
    intro word; unfold setIdx; rw [if_neg (by omega)]
  induction pre with
  | nil =>
    intro ii word h1 h4 h5 _
    simp only [List.length_nil, Nat.zero_add, List.nil_append] at h1 h5 ⊢
    have hr : n - ii - 1 = post.length := by omega
    rw [parseLoop, subC_ok (by omega), ok_bind, subC_ok (by omega), ok_bind, hr]
    have noflush : outIi = post.length / pw → pw * outIi ≤ post.length := fun h => by
      rw [h]; exact Nat.mul_div_le _ _
    by_cases hii : ii > 0
    · rw [if_pos hii, addC_ok (by omega), ok_bind]
      by_cases hf : (post.length + 1) % pw = 0
      · have hdiv : post.length + 1 = pw * outIi := by
          rw [h5 hii, Nat.mul_div_cancel' (Nat.dvd_of_mod_eq_zero hf)]
        rw [if_pos hf, hset, if_neg (by omega)]
        rfl
      · rw [if_neg hf, ok_bind]
        simp only [hdv, hc]
        rw [if_pos (noflush (by
          rw [h5 hii, Nat.succ_div_of_not_dvd (fun hdvd => hf (Nat.mod_eq_zero_of_dvd hdvd))]))]
    · rw [if_neg hii, ok_bind]
      simp only [hdv, hc]
      rw [if_pos (noflush (by rw [h4 (by omega)]; congr 1; omega))]
  | cons d pre ih =>
    intro ii word h1 h4 h5 hp
    have elen : (d :: pre).length + (post.length + 1) = (pre.length + (post.length + 1)) + 1 := by
      rw [List.length_cons]; omega
    rw [elen] at h1 h5
    obtain ⟨v, hp⟩ := hp
    rw [digitsFrom] at hp
    cases hd : digitOf (2 ^ bits) d with
    | none => rw [hd] at hp; cases hp
    | some x =>
      have hp' : ∃ v, digitsFrom (2 ^ bits) 0 pre = some v := by
        rw [hd] at hp
        dsimp only at hp
        rw [digitsFrom_acc] at hp
        cases hq : digitsFrom (2 ^ bits) 0 pre with
        | none => rw [hq] at hp; cases hp
        | some q => exact ⟨q, rfl⟩
      have hr : n - ii - 1 = pre.length + (post.length + 1) := by omega
      rw [List.cons_append, parseLoop, subC_ok (by omega), ok_bind, subC_ok (by omega), ok_bind, hr]
      by_cases hii : ii > 0
      · rw [if_pos hii, addC_ok (by omega), ok_bind]
        by_cases hf : (pre.length + (post.length + 1) + 1) % pw = 0
        · have hdiv : pre.length + (post.length + 1) + 1 = pw * outIi := by
            rw [h5 hii, Nat.mul_div_cancel' (Nat.dvd_of_mod_eq_zero hf)]
          rw [if_pos hf, hset, if_neg (by omega)]
          rfl
        · rw [if_neg hf, ok_bind]
          simp only [hdv, hd]
          exact ih (ii + 1) _ (by omega) (fun e => by omega) (fun _ => by
            rw [h5 hii, Nat.succ_div_of_not_dvd (fun hdvd => hf (Nat.mod_eq_zero_of_dvd hdvd))]) hp'
      · rw [if_neg hii, ok_bind]
        simp only [hdv, hd]
        exact ih (ii + 1) _ (by omega) (fun e => by omega) (fun _ => by rw [h4 (by omega)]; congr 1; omega) hp'

/-- **C37, exact, hexadecimal above 128 bits**: a malformed string that is too long for the words is an invalid digit if the bad
character is among the digits of its top word, and panics otherwise. -/
theorem C37_hex_too_long_malformed (m : Mode) {s : List Byte} {w p rest : Nat} (h0 : 128 < w)
    (h : FailsAfter 16 (numeralDigits s) p rest) (hlen : 64 * ((w + 63) / 64) < 4 * (numeralDigits s).length)
    (hu32 : 4 * (numeralDigits s).length < 2 ^ 32) :
    BitVecValue.fromStrRadix m s 16 w =
      if 16 * (((numeralDigits s).length - 1) / 16) ≤ rest then ok (.error .invalidDigit) else panic .bounds := by
  obtain ⟨hs, hs', hp⟩ := strip_of_fails h
  obtain ⟨pre, c, post, e, h1, h2, rfl⟩ := h
  have elen : (numeralDigits s).length = pre.length + (post.length + 1) := by rw [e]; simp
  have hU : (U32 : Nat) = 4294967296 := rfl
  have hU' : (U64 : Nat) = 18446744073709551616 := rfl
  have hl := zero_words_length w
  have hdc : divCeil ((numeralDigits s).length * 4) BITS = (4 * (numeralDigits s).length + 63) / 64 := by
    show ((numeralDigits s).length * 4 + 63) / 64 = _
    rw [Nat.mul_comm]
  have hoi : (4 * (numeralDigits s).length + 63) / 64 - 1 = ((numeralDigits s).length - 1) / 16 := by omega
  have hloop := parseLoop_fails_long (m := m) (bits := 4) (pw := 16) (dv := hexDigitValue)
      hexDigitValue_eq (n := (numeralDigits s).length) (by omega) h2 post (out := (BitVecValue.zero w).words)
      (outIi := ((numeralDigits s).length - 1) / 16) (by omega) pre 0 0#64 (by omega) (fun _ => rfl) (fun h => by omega) ⟨_, h1⟩
  have hm : parseMagnitude m (stripMinus s) 16 (BitVecValue.zero w).words w =
      if 16 * (((numeralDigits s).length - 1) / 16) ≤ post.length then ok ((BitVecValue.zero w).words, .error .invalidDigit)
      else panic .bounds := by
    rw [parseMagnitude_of_wide h0 hl, if_neg hp, if_neg (by decide), if_neg (by decide), if_pos rfl,
      show stripPlus (stripMinus s) = numeralDigits s from rfl]
    unfold parseBase16
    dsimp only
    rw [Nat.mod_eq_of_lt (show (numeralDigits s).length < U32 by omega), mulC_ok (by omega), ok_bind, hdc,
      subC_ok (by omega), ok_bind, hoi]
    rw [← e] at hloop
    rw [hloop]
    split <;> rfl
  split
  · next hle =>
    rw [if_pos hle] at hm
    exact fromStrRadix_eq_err (fromStrRadix_err (by omega) hs hs' hm)
  · next hle =>
    rw [if_neg hle] at hm
    exact fromStrRadix_eq_panic (fromStrRadix_panic (by omega) hs hs' hm)

example : BitVecValue.fromStrRadix .release (List.replicate 16 (ch 'f') ++ ch 'x' :: List.replicate 47 (ch 'f')) 16 129 = panic .bounds ∧
    BitVecValue.fromStrRadix .release (List.replicate 15 (ch 'f') ++ ch 'x' :: List.replicate 48 (ch 'f')) 16 129 =
      ok (.error .invalidDigit) := by decide +kernel

theorem partial_of_loop {bits pw t len outIi k p : Nat} {out out' : List Word} (hbp : bits * pw = 64) (ht : 0 < t)
    (hlen : 0 < len) (hk : k = (t + (pw - 1)) / pw) (ho : outIi = (len - 1) / pw) (hl : out'.length = out.length) (h3 : outIi < out.length)
    (h5 : out'.drop (outIi + 1) = out.drop (outIi + 1))
    (h6 : wordsVal (out'.take (outIi + 1)) = wordsVal (out.take k) + 2 ^ (64 * k) * (p * 2 ^ (bits * t) / 2 ^ (64 * k))) :
    wordsVal out' = partialMagnitude bits p t len (wordsVal out) := by
  have hpw : 0 < pw := Nat.pos_of_ne_zero fun h => by rw [h] at hbp; omega
  have hb : 0 < bits := Nat.pos_of_ne_zero fun h => by rw [h] at hbp; omega
  have ceil : ∀ x, 0 < x → (bits * x + 63) / 64 = (x - 1) / pw + 1 := by
    intro x hx
    have h7 := Nat.div_add_mod (x - 1) pw
    have h8 := Nat.mod_lt (x - 1) hpw
    generalize (x - 1) / pw = q at *
    generalize (x - 1) % pw = r at *
    have hx' : bits * x = 64 * q + bits * (r + 1) := by
      rw [show x = pw * q + (r + 1) by omega, Nat.mul_add, ← Nat.mul_assoc, hbp]
    have hr1 : bits * (r + 1) ≤ 64 := by
      rw [← hbp]; exact Nat.mul_le_mul_left _ (by omega)
    have hr2 : 0 < bits * (r + 1) := Nat.mul_pos hb (by omega)
    omega
  have hk' : (bits * t + 63) / 64 = k := by
    rw [ceil t ht, hk, show t + (pw - 1) = (t - 1) + pw by omega, Nat.add_div_right _ hpw]
  have ho' : (bits * len + 63) / 64 = outIi + 1 := by rw [ceil len hlen, ho]
  unfold partialMagnitude
  dsimp only
  rw [hk', ho', wordsVal_of_take_drop hl (by omega) h5, h6, Big.wordsVal_take, Nat.mul_comm (2 ^ (64 * k))]

/-- **C74, exact**: what a failed parse above 128 bits leaves behind, for binary strings of at most `w` characters and
hexadecimal strings that fit into the words. -/
theorem C74_exact (m : Mode) {v : BitVecValue} (hv : Canonical v) (hw : 128 < v.width) (s : List Byte) (p rest : Nat) :
    (FailsAfter 2 (numeralDigits s) p rest → (numeralDigits s).length ≤ v.width →
      ∃ r, BitVecValue.assignFromStrRadix m v s 2 = ok (r, .error .invalidDigit) ∧ r.width = v.width ∧
        r.words.length = v.words.length ∧
        wordsVal r.words = partialMagnitude 1 p (rest + 1) (numeralDigits s).length (wordsVal v.words)) ∧
    (FailsAfter 16 (numeralDigits s) p rest → 4 * (numeralDigits s).length ≤ 64 * v.words.length →
      4 * (numeralDigits s).length < 2 ^ 32 →
      ∃ r, BitVecValue.assignFromStrRadix m v s 16 = ok (r, .error .invalidDigit) ∧ r.width = v.width ∧
        r.words.length = v.words.length ∧
        wordsVal r.words = partialMagnitude 4 p (rest + 1) (numeralDigits s).length (wordsVal v.words)) := by
  have hl := hv.length_eq
  have hwlt := hv.width_lt
  have hU : (U32 : Nat) = 4294967296 := rfl
  have hU' : (U64 : Nat) = 18446744073709551616 := rfl
  constructor
  · intro h hlen
    obtain ⟨hs, hs', hp⟩ := strip_of_fails h
    obtain ⟨pre, c, post, e, h1, h2, rfl⟩ := h
    have elen : (numeralDigits s).length = pre.length + (post.length + 1) := by rw [e]; simp
    obtain ⟨out', g1, g2, g3, g4, g5, g6⟩ := parseLoop_fails (m := m) (bits := 1) (pw := 64) rfl (dv := binDigitValue)
      binDigitValue_eq (n := (numeralDigits s).length) (by omega) h2 post rfl pre 0 v.words
      (((numeralDigits s).length + 63) / 64 - 1) 0#64 p (by omega) (by omega) (fun _ => by omega) (fun h => by omega)
      (by simp [Nat.two_pow_pos]) h1
    refine ⟨{ v with words := out' }, assignFromStrRadix_eq (fromStrRadix_err (by omega) hs hs' ?_), rfl, g2, ?_⟩
    · rw [parseMagnitude_of_wide hw hl, if_neg hp, if_pos rfl, show stripPlus (stripMinus s) = numeralDigits s from rfl]
      unfold parseBase2
      dsimp only
      rw [Nat.mod_eq_of_lt (show (numeralDigits s).length < U32 by omega), if_neg (by omega),
        show divCeil (numeralDigits s).length BITS = ((numeralDigits s).length + 63) / 64 from rfl, subC_ok (by omega), ok_bind]
      rw [← e] at g1
      rw [g1, ok_bind]
    · refine partial_of_loop (pw := 64) (k := (post.length + 1 + 63) / 64) rfl (by omega) (by omega) rfl ?_ g2 ?_ g5 ?_
      · omega
      · omega
      · rw [g6]; simp
  · intro h hlen hlt
    obtain ⟨hs, hs', hp⟩ := strip_of_fails h
    obtain ⟨pre, c, post, e, h1, h2, rfl⟩ := h
    have elen : (numeralDigits s).length = pre.length + (post.length + 1) := by rw [e]; simp
    have hdc : divCeil ((numeralDigits s).length * 4) BITS = (4 * (numeralDigits s).length + 63) / 64 := by
      show ((numeralDigits s).length * 4 + 63) / 64 = _
      rw [Nat.mul_comm]
    obtain ⟨out', g1, g2, g3, g4, g5, g6⟩ := parseLoop_fails (m := m) (bits := 4) (pw := 16) rfl (dv := hexDigitValue)
      hexDigitValue_eq (n := (numeralDigits s).length) (by omega) h2 post rfl pre 0 v.words
      ((4 * (numeralDigits s).length + 63) / 64 - 1) 0#64 p (by omega) (by omega) (fun _ => by omega) (fun h => by omega)
      (by simp [Nat.two_pow_pos]) h1
    refine ⟨{ v with words := out' }, assignFromStrRadix_eq (fromStrRadix_err (by omega) hs hs' ?_), rfl, g2, ?_⟩
    · rw [parseMagnitude_of_wide hw hl, if_neg hp, if_neg (by decide), if_neg (by decide), if_pos rfl,
        show stripPlus (stripMinus s) = numeralDigits s from rfl]
      unfold parseBase16
      dsimp only
      rw [Nat.mod_eq_of_lt (show (numeralDigits s).length < U32 by omega), mulC_ok (by omega), ok_bind, hdc,
        subC_ok (by omega), ok_bind]
      rw [← e] at g1
      rw [g1, ok_bind]
    · refine partial_of_loop (pw := 16) (k := (post.length + 1 + 15) / 16) rfl (by omega) (by omega) rfl ?_ g2 ?_ g5 ?_
      · omega
      · omega
      · rw [g6]; simp

/-- The digits before the bad character completed the upper two of three words; the low word is not reached. -/
example : Canonical (encode (BitVec.allOnes 192)) ∧
    FailsAfter 16 (numeralDigits ("123456789abcdef0fedcba9876543210xyz".toList.map ch)) 0x123456789abcdef0fedcba9876543210 2 ∧
    BitVecValue.assignFromStrRadix .debug (encode (BitVec.allOnes 192)) ("123456789abcdef0fedcba9876543210xyz".toList.map ch) 16 =
      ok (⟨192, [BitVec.allOnes 64, 0x456789abcdef0fed#64, 0x123#64]⟩, .error .invalidDigit) :=
  ⟨(encode_denotes _ (by decide)).canonical, ⟨"123456789abcdef0fedcba9876543210".toList.map ch, ch 'x', "yz".toList.map ch,
    by decide +kernel, by decide +kernel, by decide +kernel, rfl⟩, by decide +kernel⟩

end Baa
