import Verif.Props.Malformed
import Verif.SpecObserve

/-!
# C106: what observers and assignments of machine integers do with values of any width and any number of words
-/

namespace Baa
open Res Strings

variable {a : BitVecValue}

theorem returns_bind {α β : Type} {x : Res α} {o : Option α} {f : α → Res β} {g : α → Option β} (hx : Returns x o)
    (h : ∀ r, Returns (f r) (g r)) : Returns (do let r ← x; f r) (do let r ← o; g r) := by
  cases o with
  | none => exact panics_bind' _ hx
  | some r =>
    rw [show x = ok r from hx]
    exact h r

/-- The first word. -/
theorem idx_low (l : List Word) : Returns (idx l 0) (if l.length = 0 then none else some (BitVec.ofNat 64 (wordsVal l))) := by
  obtain ⟨h1, h2⟩ := idx_first l
  by_cases h0 : l.length = 0
  · rw [if_pos h0]
    exact h1 h0
  · rw [if_neg h0]
    obtain ⟨x, h3, h4⟩ := h2 h0
    rw [h3]
    refine congrArg ok (BitVec.eq_of_toNat_eq ?_)
    rw [h4, BitVec.toNat_ofNat]

/-- The sign of any words. -/
theorem isNeg_returns (m : Mode) (a : BitVecValue) : Returns (Arith.isNeg m a.words a.width) (Test.foresee m a.shape .negative) := by
  obtain ⟨h1, h2⟩ := Arith.isNeg_list m a.words a.width
  by_cases h : a.words.length = 0 ∨ (m = .debug ∧ a.width = 0)
  · rw [show Test.foresee m a.shape .negative = none from if_pos h]
    exact h1 h
  · rw [show Test.foresee m a.shape .negative = some _ from if_neg h]
    exact h2 h

/-! ## Machine integers -/

/-- **C106** `to_u64`. -/
theorem C106_to_u64 (a : BitVecValue) : BitVecValue.toU64 a = a.shape.asU64 := by
  show _ = if wordsVal a.words < 2 ^ 64 then some (BitVec.ofNat 64 (wordsVal a.words)) else none
  unfold BitVecValue.toU64
  rw [Arith.any_ne_zero_iff]
  cases h : a.words with
  | nil => rfl
  | cons x xs =>
    rw [List.drop_one, List.tail_cons, wordsVal_cons]
    have hx := x.isLt
    by_cases hz : wordsVal xs = 0
    · rw [decide_eq_false (by simpa using hz), hz, if_neg (by decide), if_pos (by omega)]
      simp
    · rw [decide_eq_true hz, if_pos rfl, if_neg (by omega)]

/-- **C106** `to_bool`. -/
theorem C106_to_bool (a : BitVecValue) : Returns (BitVecValue.toBool a) a.shape.asBool := by
  unfold BitVecValue.toBool Shape.asBool
  have hi := idx_low a.words
  show Returns (if a.width = 1 then _ else _) (if a.width ≠ 1 then _ else if a.words.length = 0 then _ else _)
  by_cases hw : a.width = 1
  · rw [if_pos hw, if_neg (fun h => h hw)]
    by_cases h0 : a.words.length = 0
    · rw [if_pos h0] at hi ⊢
      exact panics_bind' _ hi
    · rw [if_neg h0] at hi ⊢
      rw [show idx a.words 0 = _ from hi, ok_bind]
      refine congrArg ok (congrArg some ?_)
      unfold Arith.wordToBool
      have := Arith.and_one_beq (BitVec.ofNat 64 (wordsVal a.words)) 0
      rw [BitVec.ushiftRight_zero] at this
      rw [this, BitVec.getLsbD_ofNat]
      rfl
  · rw [if_neg hw, if_pos hw]
    exact rfl

/-- **C106** `to_i64`. -/
theorem C106_to_i64 (m : Mode) (a : BitVecValue) : Returns (BitVecValue.toI64 m a) (a.shape.asI64 m) := by
  unfold BitVecValue.toI64
  show Returns _ (if a.width = 0 then some (some 0#64) else if a.words.length = 0 then none else if a.width < 64 then
      if m = .debug ∧ a.words.length ≠ 1 then none else some (some (BitVec.ofNat 64
        (if (wordsVal a.words).testBit (fitted a.width a.words.length - 1) = true then wordsVal a.words ||| (2 ^ 64 - 2 ^ a.width)
          else wordsVal a.words)))
    else if a.width = 64 then some (some (BitVec.ofNat 64 (wordsVal a.words)))
    else if a.words.length = 1 then some none
    else some (if wordsVal a.words < 2 ^ 63 ∨ 2 ^ (64 * a.words.length) ≤ wordsVal a.words + 2 ^ 63 then
      some (BitVec.ofNat 64 (wordsVal a.words)) else none))
  have hi := idx_low a.words
  by_cases h0 : a.width = 0
  · rw [if_pos h0, if_pos (by omega), if_pos h0]
    exact rfl
  simp only [if_neg h0]
  by_cases hl : a.words.length = 0
  · rw [if_pos hl] at hi ⊢
    by_cases hw : a.width ≤ 64
    · rw [if_pos hw]
      by_cases h64 : a.width = 64
      · rw [if_pos h64]
        exact panics_bind' _ hi
      · rw [if_neg h64]
        exact panics_bind_all _ fun _ => panics_bind' _ ((Arith.isNeg_list m a.words a.width).1 (.inl hl))
    · rw [if_neg hw]
      exact panics_bind' _ hi
  · rw [if_neg hl] at hi ⊢
    by_cases hlt : a.width < 64
    · rw [if_pos (by omega), if_neg (by omega), if_pos hlt]
      by_cases hd : m = .debug ∧ a.words.length ≠ 1
      · rw [if_pos hd, hd.1]
        exact panics_bind' _ (debugAssert_panics (by simpa using hd.2))
      · rw [if_neg hd, debugAssert_split (fun h => hd ⟨h.1, by simpa using h.2⟩), ok_bind,
          (Arith.isNeg_list m a.words a.width).2 (by simp only [not_or]; exact ⟨hl, fun h => h0 h.2⟩), ok_bind]
        rw [show idx a.words 0 = _ from hi, ok_bind]
        by_cases hn : (wordsVal a.words).testBit (fitted a.width a.words.length - 1) = true
        · obtain ⟨mk, hm1, _, hm3⟩ := Arith.mask_spec (k := 64 - a.width) (by omega) (by omega)
          rw [if_pos hn, if_pos hn, show BITS - a.width = 64 - a.width from rfl, hm1, ok_bind]
          refine congrArg ok (congrArg some (BitVec.eq_of_getLsbD_eq fun i hi => ?_))
          rw [BitVec.getLsbD_or, BitVec.getLsbD_shiftLeft, hm3, BitVec.getLsbD_ofNat, BitVec.getLsbD_ofNat, decide_eq_true hi,
            Nat.testBit_or, Arith.testBit_high (by omega), decide_eq_true hi]
          by_cases h : i < a.width
          · rw [decide_eq_true h, decide_eq_false (show ¬ a.width ≤ i by omega)]; simp
          · rw [decide_eq_false h, decide_eq_true (show i - a.width < 64 - a.width by omega),
              decide_eq_true (show a.width ≤ i by omega)]; simp
        · rw [if_neg hn, if_neg hn]
          exact rfl
    · rw [if_neg hlt]
      by_cases h64 : a.width = 64
      · rw [if_pos (by omega), if_pos h64, if_pos h64, show idx a.words 0 = _ from hi]
        exact rfl
      · rw [if_neg (by omega), if_neg h64]
        rw [show idx a.words 0 = _ from hi, ok_bind]
        obtain ⟨w0, ws, hws⟩ : ∃ w0 ws, a.words = w0 :: ws := by
          cases h : a.words with
          | nil => rw [h] at hl; exact absurd rfl hl
          | cons p q => exact ⟨p, q, rfl⟩
        have hw0 := w0.isLt
        have hwsl := wordsVal_lt ws
        have hN : BitVec.ofNat 64 (wordsVal a.words) = w0 := by
          apply BitVec.eq_of_toNat_eq
          rw [BitVec.toNat_ofNat, hws, wordsVal_cons]; omega
        rw [hN, hws, List.length_cons, wordsVal_cons, Nat.mul_succ, Nat.pow_add]
        simp only [List.drop_one, List.tail_cons, all_zero_iff, all_max_iff, BITS, wordNeg_spec, ok_bind]
        have hP : ws.length ≠ 0 → 2 ^ 64 ≤ 2 ^ (64 * ws.length) := fun h => Nat.pow_le_pow_right (by decide) (by omega)
        have hP0 : ws.length = 0 → 2 ^ (64 * ws.length) = 1 := fun h => by rw [h]
        generalize wordsVal ws = V at *
        generalize 2 ^ (64 * ws.length) = P at *
        by_cases h1 : ws.length = 0
        · rw [if_pos (by omega)]
          have hP0 := hP0 h1
          rw [decide_eq_true (show V = 0 by omega), decide_eq_true (show V + 1 = P by omega)]
          exact rfl
        · rw [if_neg (by omega)]
          have hP := hP h1
          by_cases hz : V = 0
          · have hm : ¬ V + 1 = P := by omega
            rw [decide_eq_true hz, decide_eq_false hm]
            by_cases hn : 2 ^ 63 ≤ w0.toNat
            · rw [decide_eq_true hn, if_neg (by omega)]
              exact rfl
            · rw [decide_eq_false hn, if_pos (by omega)]
              exact rfl
          · rw [decide_eq_false hz]
            by_cases hm : V + 1 = P
            · rw [decide_eq_true hm]
              by_cases hn : 2 ^ 63 ≤ w0.toNat
              · rw [decide_eq_true hn, if_pos (by omega)]
                exact rfl
              · rw [decide_eq_false hn, if_neg (by omega)]
                exact rfl
            · rw [decide_eq_false hm, if_neg (by omega)]
              exact rfl

/-! ## Texts -/

theorem lastU_nil : Panics (lastU ([] : List Word)) := ⟨_, rfl⟩

/-- The binary digits of any words. -/
theorem bits_any (ws : List Word) (w : Nat) (out : List Byte) : Returns (Strings.toBitStrInternal ws w out)
    (if w = 0 then some [] else if ws.length = 0 then none else some (out ++ numeral 2 (wordsVal ws) (fitted w ws.length))) := by
  by_cases hw : w = 0
  · rw [if_pos hw, hw]
    exact rfl
  · rw [if_neg hw]
    by_cases h0 : ws.length = 0
    · rw [if_pos h0, List.eq_nil_of_length_eq_zero h0]
      unfold Strings.toBitStrInternal
      rw [if_neg hw]
      exact panics_bind' _ lastU_nil
    · rw [if_neg h0]
      show _ = _
      rw [Strings.toBitStrInternal_eq (by omega) (fun h => h0 (by rw [h]; rfl)), numeral_bin]
      congr 3
      unfold fitted
      omega

/-- **C106** `to_bit_str`. -/
theorem C106_to_bit_str (a : BitVecValue) : Returns (BitVecValue.toBitStr a) a.shape.bits := by
  have := bits_any a.words a.width []
  rwa [List.nil_append] at this

/-- The hexadecimal digits of any words. -/
theorem hex_any (m : Mode) (ws : List Word) (w : Nat) (out : List Byte) : Returns (Strings.toHexStrInternal m ws w out)
    (if m = .debug ∧ ws.length ≠ need w then none else if w = 0 then some [] else if ws.length = 0 then none
      else some (out ++ numeral 16 (wordsVal ws) (16 * (ws.length - 1) + ((w + 63) % 64 + 4) / 4))) := by
  by_cases hd : m = .debug ∧ ws.length ≠ need w
  · rw [if_pos hd, hd.1]
    refine panics_bind' _ (debugAssert_panics ?_)
    rw [beq_eq_false_iff_ne]
    exact fun h => hd.2 h.symm
  · have hda : debugAssert m (divCeil w BITS == ws.length) = ok () := by
      refine debugAssert_split fun h => hd ⟨h.1, ?_⟩
      have := h.2
      rw [beq_eq_false_iff_ne] at this
      exact fun e => this e.symm
    rw [if_neg hd]
    by_cases hw : w = 0
    · rw [if_pos hw]
      unfold Strings.toHexStrInternal
      rw [hda, ok_bind, if_pos hw]
      exact rfl
    · rw [if_neg hw]
      by_cases h0 : ws.length = 0
      · rw [if_pos h0]
        unfold Strings.toHexStrInternal
        rw [hda, ok_bind, if_neg hw, List.eq_nil_of_length_eq_zero h0]
        exact panics_bind' _ lastU_nil
      · rw [if_neg h0]
        have hlen : ws.length = (fitted w ws.length + 63) / 64 := by unfold fitted; omega
        have h1 := Strings.toHexStrInternal_eq (m := .release) hlen (fitted_pos w ws.length) out
        rw [numeral_hex, show (fitted w ws.length + 3) / 4 = 16 * (ws.length - 1) + ((w + 63) % 64 + 4) / 4 by unfold fitted; omega] at h1
        show _ = _
        rw [← h1]
        unfold Strings.toHexStrInternal
        have hf : fitted w ws.length % BITS = w % BITS := by
          show fitted w ws.length % 64 = w % 64
          unfold fitted
          omega
        rw [hda, ok_bind, debugAssert_split (m := .release) (fun h => by cases h.1), ok_bind, if_neg hw,
          if_neg (show ¬ fitted w ws.length = 0 by have := fitted_pos w ws.length; omega), hf]

/-- **C106** `to_hex_str`. -/
theorem C106_to_hex_str (m : Mode) (a : BitVecValue) : Returns (BitVecValue.toHexStr m a) (a.shape.hex m) := by
  have := hex_any m a.words a.width []
  rwa [List.nil_append] at this

/-- **C106** `to_dec_str`. -/
theorem C106_to_dec_str (m : Mode) (a : BitVecValue) :
    if wordsVal a.words < 2 ^ 128 ∧ (m = .release ∨ a.width * 3 < 2 ^ 32) then
      ∃ s, BitVecValue.toDecStr m a = ok s ∧ IsDecimal (wordsVal a.words) s
    else Panics (BitVecValue.toDecStr m a) := by
  unfold BitVecValue.toDecStr Strings.toDecStr
  have hok : (m = .release ∨ a.width * 3 < 2 ^ 32) → ∃ k, mulC m U32 a.width 3 = ok k := by
    rintro (hw | hw)
    · subst hw
      unfold mulC
      split <;> exact ⟨_, rfl⟩
    · exact ⟨_, mulC_ok hw⟩
  split
  · rename_i h
    obtain ⟨k, hk⟩ := hok h.2
    refine ⟨decimal (wordsVal a.words), ?_, ?_, ?_⟩
    · rw [hk, ok_bind, toDecStrInternal_eq m h.1]
    · unfold digitsVal
      rw [if_neg (decimal_ne_nil _), digitsFrom_decimal]
    · intro h
      by_cases h0 : wordsVal a.words = 0
      · rw [h0, decimal_zero]
      · exact absurd h (decimal_head h0)
  · rename_i h
    cases hk : mulC m U32 a.width 3 with
    | panic p => exact ⟨p, rfl⟩
    | ok k =>
      by_cases hN : wordsVal a.words < 2 ^ 128
      · exfalso
        apply h ⟨hN, _⟩
        cases m with
        | release => exact .inl rfl
        | debug =>
          right
          unfold mulC at hk
          split at hk
          · assumption
          · cases hk
      · exact ⟨.todo, by rw [ok_bind, toDecStrInternal_todo m (by omega)]⟩

/-- Negating any words in place. -/
theorem negate_any (m : Mode) (ws : List Word) (w : Nat) : Fills (Arith.negateInPlace m ws w) ws.length
    (masked m w ws.length ((2 ^ (64 * ws.length) - wordsVal ws) % 2 ^ (64 * ws.length))) := by
  have := Arith.maskMsb_any m (Arith.negateLoop 1 ws) w
  rw [Arith.negateLoop_length, Arith.negateLoop_val] at this
  exact this

/-- The width of the digits after the sign. -/
theorem below_any {m : Mode} {w : Nat} (h : ¬ (m = .debug ∧ w = 0)) : subC m U32 w 1 = ok (below w) := by
  unfold below
  by_cases hw : w = 0
  · subst hw
    cases m with
    | debug => exact absurd ⟨rfl, rfl⟩ h
    | release => rfl
  · rw [if_neg hw, subC_ok (by omega)]

/-- The common part of the signed texts: `f` prints the words of the magnitude, `g` says what it prints. -/
theorem signed_text (m : Mode) (a : BitVecValue) {f : List Word → List Byte → Nat → Res (List Byte)}
    {g : Bool → Nat → Option (List Byte)}
    (h : ∀ ws neg, ws.length = a.words.length → ws.length ≠ 0 → Returns (f ws (minus neg) (below a.width)) (g neg (wordsVal ws))) :
    Returns (do
      let neg ← Arith.isNeg m a.words a.width
      if neg then
        let copy ← Arith.negateInPlace m a.words a.width
        let w1 ← subC m U32 a.width 1
        f copy [ch '-'] w1
      else
        let w1 ← subC m U32 a.width 1
        f a.words [] w1) (do let p ← a.shape.parts m; g p.1 p.2) := by
  obtain ⟨h1, h2⟩ := Arith.isNeg_list m a.words a.width
  unfold Shape.parts
  by_cases hc : a.words.length = 0 ∨ (m = .debug ∧ a.width = 0)
  · rw [show Test.foresee m a.shape .negative = none from if_pos hc]
    exact panics_bind' _ (h1 hc)
  · rw [show Test.foresee m a.shape .negative = some _ from if_neg hc, h2 hc, ok_bind]
    simp only [not_or] at hc
    have hb := below_any hc.2
    cases hn : (wordsVal a.words).testBit (fitted a.width a.words.length - 1) with
    | false =>
      rw [show a.shape.number.testBit (fitted a.shape.width a.shape.words - 1) = false from hn, if_neg (by decide), hb, ok_bind]
      exact h a.words false rfl hc.1
    | true =>
      rw [show a.shape.number.testBit (fitted a.shape.width a.shape.words - 1) = true from hn, if_pos rfl, hb]
      have hneg := negate_any m a.words a.width
      show Returns _ (do
        let p ← (do
          let neg ← some true
          if neg then
            (masked m a.width a.words.length ((2 ^ (64 * a.words.length) - wordsVal a.words) % 2 ^ (64 * a.words.length))).map (fun K => (true, K))
          else some (false, wordsVal a.words))
        g p.1 p.2)
      cases hm : masked m a.width a.words.length ((2 ^ (64 * a.words.length) - wordsVal a.words) % 2 ^ (64 * a.words.length)) with
      | none =>
        rw [hm] at hneg
        exact panics_bind' _ hneg
      | some K =>
        rw [hm] at hneg
        obtain ⟨r, h3, h4, h5⟩ := hneg
        rw [h3, ok_bind, ok_bind, ← h5]
        exact h r true h4 (by rw [h4]; exact hc.1)

theorem below_zero {w : Nat} : below w = 0 ↔ w = 1 := by
  unfold below
  split <;> omega

/-- **C106** `to_bit_str_signed`. -/
theorem C106_to_bit_str_signed (m : Mode) (a : BitVecValue) : Returns (BitVecValue.toBitStrSigned m a) (a.shape.bitsSigned m) := by
  refine signed_text m a (f := fun ws out w => Strings.toBitStrInternal ws w out)
    (g := fun neg N => some (if a.width = 1 then [] else minus neg ++ numeral 2 N (fitted (below a.width) a.words.length)))
    fun ws neg hl h0 => ?_
  have := bits_any ws (below a.width) (minus neg)
  rw [if_neg h0, hl] at this
  by_cases hw : a.width = 1
  · rw [if_pos (below_zero.mpr hw)] at this
    rw [if_pos hw]
    exact this
  · rw [if_neg (fun h => hw (below_zero.mp h))] at this
    rw [if_neg hw]
    exact this

/-- **C106** `to_hex_str_signed`. -/
theorem C106_to_hex_str_signed (m : Mode) (a : BitVecValue) : Returns (BitVecValue.toHexStrSigned m a) (a.shape.hexSigned m) := by
  refine signed_text m a (f := fun ws out w => do let ws ← selectWordsForWidth m ws w; Strings.toHexStrInternal m ws w out)
    (g := fun neg N => if a.words.length < need (below a.width) then none
      else some (if a.width = 1 then [] else minus neg ++ numeral 16 N ((below a.width + 3) / 4)))
    fun ws neg hl h0 => ?_
  rw [← hl]
  by_cases hs : ws.length < need (below a.width)
  · rw [if_pos hs]
    refine panics_bind' _ (panics_bind_all _ fun _ => ?_)
    unfold sliceR
    rw [if_neg (fun h => by
      have h2 : need (below a.width) ≤ ws.length := h.2
      omega)]
    exact ⟨_, rfl⟩
  · rw [if_neg hs]
    have hsel : selectWordsForWidth m ws (below a.width) = ok (ws.take (need (below a.width))) := by
      unfold selectWordsForWidth
      dsimp only
      rw [debugAssert_of (by rw [decide_eq_true_eq]; show need (below a.width) ≤ ws.length; omega), ok_bind,
        sliceR_ok (by omega) (by show need (below a.width) ≤ ws.length; omega), List.drop_zero, Nat.sub_zero]
      rfl
    show Returns (do let ws ← selectWordsForWidth m ws (below a.width); Strings.toHexStrInternal m ws (below a.width) (minus neg)) _
    rw [hsel, ok_bind]
    have hlen : (ws.take (need (below a.width))).length = need (below a.width) := by rw [List.length_take]; omega
    by_cases hw : a.width = 1
    · rw [if_pos hw, below_zero.mpr hw]
      cases m <;> exact rfl
    · rw [if_neg hw]
      have hb : below a.width ≠ 0 := fun h => hw (below_zero.mp h)
      show _ = _
      rw [toHexStrInternal_eq (by rw [hlen]; rfl) (by omega), numeral_hex, Big.wordsVal_take]
      congr 2
      unfold numeral
      refine List.map_congr_left fun i hi => ?_
      have hi : i < (below a.width + 3) / 4 := by simpa using hi
      congr 1
      have h4 : 4 * i + 4 ≤ 64 * need (below a.width) := by unfold need; omega
      generalize wordsVal ws = N
      rw [show (16 : Nat) = 2 ^ 4 from rfl, ← Nat.pow_mul]
      apply Nat.eq_of_testBit_eq
      intro j
      rw [Nat.testBit_mod_two_pow, Nat.testBit_mod_two_pow, ← Nat.shiftRight_eq_div_pow, ← Nat.shiftRight_eq_div_pow,
        Nat.testBit_shiftRight, Nat.testBit_shiftRight, Nat.testBit_mod_two_pow]
      by_cases hj : j < 4
      · rw [decide_eq_true (show 4 * i + j < 64 * need (below a.width) by omega), Bool.true_and]
      · rw [decide_eq_false hj]; rfl

/-! ## Bytes and large integers -/

/-- **C106** `to_bytes_le`. -/
theorem C106_to_bytes_le (a : BitVecValue) : (BitVecValue.toBytesLe a).length = min (8 * a.words.length) ((a.width + 7) / 8) ∧
    bytesVal (BitVecValue.toBytesLe a) = wordsVal a.words % 2 ^ (8 * ((a.width + 7) / 8)) := by
  unfold BitVecValue.toBytesLe
  rw [Bytes.toBytesLe_eq]
  constructor
  · rw [List.length_take, Bytes.length_flatMap]; omega
  · rw [bytesVal_take, Bytes.bytesVal_flatMap]

/-- **C106** `to_big_uint`. -/
theorem C106_to_big_uint (a : BitVecValue) : BitVecValue.toBigUint a = wordsVal a.words := Big.toBigUint_eq _

/-- **C106** `to_big_int`. -/
theorem C106_to_big_int (m : Mode) (a : BitVecValue) : Returns (BitVecValue.toBigInt m a) (a.shape.asInt m) := by
  unfold BitVecValue.toBigInt Big.toBigInt
  show Returns _ (if a.width = 0 then some 0 else (a.shape.parts m).map fun p => if p.1 then -(p.2 : Int) else p.2)
  by_cases hw : a.width = 0
  · rw [if_pos hw, if_pos hw]
    exact rfl
  · rw [if_neg hw, if_neg hw]
    obtain ⟨h1, h2⟩ := Arith.isNeg_list m a.words a.width
    have hs : Big.getSign m a.words a.width = Arith.isNeg m a.words a.width := rfl
    rw [hs]
    unfold Shape.parts
    by_cases hc : a.words.length = 0 ∨ (m = .debug ∧ a.width = 0)
    · rw [show Test.foresee m a.shape .negative = none from if_pos hc]
      exact panics_bind' _ (h1 hc)
    · rw [show Test.foresee m a.shape .negative = some _ from if_neg hc, h2 hc, ok_bind]
      cases hn : (wordsVal a.words).testBit (fitted a.width a.words.length - 1) with
      | false =>
        rw [show a.shape.number.testBit (fitted a.shape.width a.shape.words - 1) = false from hn]
        refine congrArg ok ?_
        show ((Big.fromSlice32 (Big.wordsToU32 a.words) : Nat) : Int) = _
        rw [show Big.fromSlice32 (Big.wordsToU32 a.words) = wordsVal a.words from Big.toBigUint_eq _]
        rfl
      | true =>
        rw [show a.shape.number.testBit (fitted a.shape.width a.shape.words - 1) = true from hn, if_pos rfl]
        have hneg := negate_any m a.words a.width
        unfold Arith.negate
        rw [if_pos (by simp)]
        show Returns _ (Option.map _ ((masked m a.width a.words.length
          ((2 ^ (64 * a.words.length) - wordsVal a.words) % 2 ^ (64 * a.words.length))).map fun K => (true, K)))
        cases hm : masked m a.width a.words.length ((2 ^ (64 * a.words.length) - wordsVal a.words) % 2 ^ (64 * a.words.length)) with
        | none =>
          rw [hm] at hneg
          exact panics_bind' _ hneg
        | some K =>
          rw [hm] at hneg
          obtain ⟨r, h3, h4, h5⟩ := hneg
          rw [h3, ok_bind, ← h5]
          refine congrArg ok ?_
          show -((Big.fromSlice32 (Big.wordsToU32 r) : Nat) : Int) = _
          rw [show Big.fromSlice32 (Big.wordsToU32 r) = wordsVal r from Big.toBigUint_eq _]
          rfl

/-! ## Fixed point -/

/-- **C106** `to_unsigned_fixed_point`. -/
theorem C106_to_unsigned_fixed_point (m : Mode) (a : BitVecValue) (f : Nat) :
    Returns (BitVecValue.toUnsignedFixedPoint m a f) (a.shape.fraction m f) := by
  unfold BitVecValue.toUnsignedFixedPoint
  show Returns _ (if m = .debug ∧ (a.width < f ∨ 64 ≤ f) then none
    else some (if wordsVal a.words < 2 ^ 64 then some (⟨false, wordsVal a.words, 2 ^ (f % 64)⟩ : Fraction) else none))
  by_cases hd : m = .debug ∧ (a.width < f ∨ 64 ≤ f)
  · rw [if_pos hd, hd.1]
    by_cases hw : a.width < f
    · exact panics_bind' _ (debugAssert_panics (by simpa using hw))
    · refine panics_bind_all _ fun _ => panics_bind' _ ?_
      unfold shiftAmount64
      rw [if_neg (by omega)]
      exact ⟨_, rfl⟩
  · rw [if_neg hd, debugAssert_split (fun h => hd ⟨h.1, .inl (by simpa using h.2)⟩), ok_bind]
    have hs : shiftAmount64 m f = ok (f % 64) := by
      unfold shiftAmount64
      by_cases hf : f < 64
      · rw [if_pos hf, Nat.mod_eq_of_lt hf]
      · rw [if_neg hf]
        cases m with
        | debug => exact absurd ⟨rfl, .inr (by omega)⟩ hd
        | release => rfl
    rw [hs, ok_bind, C106_to_u64]
    show ok (Option.map _ (if wordsVal a.words < 2 ^ 64 then some (BitVec.ofNat 64 (wordsVal a.words)) else none)) = _
    by_cases h : wordsVal a.words < 2 ^ 64
    · rw [if_pos h, if_pos h, Option.map_some, BitVec.toNat_ofNat, Nat.mod_eq_of_lt h]
    · rw [if_neg h, if_neg h]
      rfl

/-- **C106** `to_signed_fixed_point`. -/
theorem C106_to_signed_fixed_point (m : Mode) (a : BitVecValue) (f : Nat) (ha : a.width < 2 ^ 32) :
    Returns (BitVecValue.toSignedFixedPoint m a f) (a.shape.fractionSigned m f) := by
  unfold BitVecValue.toSignedFixedPoint Shape.fractionSigned
  by_cases hd : m = .debug ∧ a.width < f
  · rw [if_pos (show m = .debug ∧ a.shape.width < f from hd), hd.1]
    exact panics_bind' _ (debugAssert_panics (by simpa using hd.2))
  · rw [if_neg (show ¬ (m = .debug ∧ a.shape.width < f) from hd), debugAssert_split (fun h => hd ⟨h.1, by simpa using h.2⟩), ok_bind]
    refine returns_bind (isNeg_returns m a) fun neg => ?_
    cases neg with
    | false => exact C106_to_unsigned_fixed_point m a f
    | true =>
      rw [if_pos rfl, if_pos rfl]
      by_cases hw : 64 < a.width
      · rw [if_pos hw, if_pos (show 64 < a.shape.width from hw)]
        exact rfl
      · rw [if_neg hw, if_neg (show ¬ 64 < a.shape.width from hw)]
        have hneg := C105_unary m .negate trivial ha
        cases hm : UnOp.foresee m a.shape .negate with
        | none =>
          rw [hm] at hneg
          exact panics_bind' _ hneg
        | some s =>
          rw [hm] at hneg
          obtain ⟨r, h1, rfl, _⟩ := hneg
          rw [show BitVecValue.negate m a = ok r from h1, ok_bind]
          exact returns_bind (C106_to_unsigned_fixed_point m r f) fun _ => rfl

/-! ## Assignments of machine integers -/

theorem wordsVal_single_zeros (v : Word) (k : Nat) : wordsVal (v :: List.replicate k 0#64) = v.toNat := by
  rw [wordsVal_cons, wordsVal_replicate_zero]; omega

theorem clear_words (a : BitVecValue) : (BitVecValue.clear a).words = List.replicate a.words.length 0#64 := List.map_const' ..

/-- **C106** `assign_from_u64`. -/
theorem C106_assign_from_u64 (m : Mode) (v : Word) (ha : a.width < 2 ^ 32) :
    Makes (BitVecValue.assignFromU64 m a v) (a.shape.setU64 m v.toNat) := by
  unfold BitVecValue.assignFromU64 Shape.setU64
  dsimp only
  rw [clear_words]
  show Makes _ (do
    let K ← masked m a.width a.words.length v.toNat
    if m = .debug ∧ K % 2 ^ 64 ≠ v.toNat then none else some ⟨a.width, a.words.length, K⟩)
  cases hk : a.words.length with
  | zero => exact ⟨.bounds, rfl⟩
  | succ k =>
    rw [show setIdx (List.replicate (k + 1) 0#64) 0 v = ok (v :: List.replicate k 0#64) from rfl, ok_bind]
    have hm := Arith.maskMsb_any m (v :: List.replicate k 0#64) a.width
    rw [wordsVal_single_zeros, List.length_cons, List.length_replicate] at hm
    unfold BitVecValue.maskMsb
    dsimp only
    cases hK : masked m a.width (k + 1) v.toNat with
    | none =>
      rw [hK] at hm
      exact panics_bind' _ (panics_bind' _ hm)
    | some K =>
      rw [hK] at hm
      obtain ⟨r, h1, h2, h3⟩ := hm
      have hi := idx_low r
      rw [if_neg (by omega)] at hi
      rw [show (BitVecValue.clear a).width = a.width from rfl, h1, ok_bind, ok_bind, show idx r 0 = _ from hi, ok_bind, h3]
      show Makes _ (if m = .debug ∧ K % 2 ^ 64 ≠ v.toNat then none else some ⟨a.width, k + 1, K⟩)
      have he : (BitVec.ofNat 64 K == v) = false ↔ K % 2 ^ 64 ≠ v.toNat := by
        rw [beq_eq_false_iff_ne]
        refine not_congr ⟨fun h => by rw [← h, BitVec.toNat_ofNat], fun h => BitVec.eq_of_toNat_eq (by rw [BitVec.toNat_ofNat, h])⟩
      by_cases hd : m = .debug ∧ K % 2 ^ 64 ≠ v.toNat
      · rw [if_pos hd, hd.1]
        exact panics_bind' _ (debugAssert_panics (he.mpr hd.2))
      · rw [if_neg hd, debugAssert_split (fun h => hd ⟨h.1, he.mp h.2⟩), ok_bind]
        refine ⟨_, rfl, ?_, ha⟩
        unfold BitVecValue.shape
        dsimp only
        rw [h2, h3]

/-- What `assign_from_i64` writes. -/
theorem writeI64_any (m : Mode) (v : Word) (a : BitVecValue) :
    Fills (if (BitVecValue.clear a).words.length = 1 then do
        let mk ← Arith.mask a.width
        setIdx (BitVecValue.clear a).words 0 (v &&& mk)
      else Arith.signExtend m (BitVecValue.clear a).words [v] 64 a.width) a.words.length (a.shape.writeI64 m v.toNat) := by
  rw [clear_words, List.length_replicate]
  show Fills _ _ (if a.words.length = 0 then none else if a.words.length = 1 then
      if 64 < a.width then none else some (if a.width = 0 then v.toNat else v.toNat % 2 ^ a.width)
    else if v.toNat < 2 ^ 63 then some v.toNat else masked m a.width a.words.length (2 ^ (64 * a.words.length) - 2 ^ 64 + v.toNat))
  have hv := v.isLt
  match hn : a.words.length with
  | 0 =>
    rw [if_neg (by decide), if_pos rfl]
    exact Arith.signExtend_long 64 a.width (by simp)
  | 1 =>
    rw [if_pos rfl, if_neg (by decide), if_pos rfl]
    by_cases hw : 64 < a.width
    · rw [if_pos hw]
      refine panics_bind' _ ?_
      unfold Arith.mask
      rw [if_neg (by show ¬ (a.width = 64 ∨ a.width = 0); omega)]
      refine panics_bind' _ ?_
      rw [show decide (a.width < BITS) = false from decide_eq_false (show ¬ a.width < 64 by omega)]
      exact ⟨_, rfl⟩
    · rw [if_neg hw, Arith.mask_ok (by omega), ok_bind]
      refine ⟨[v &&& (if a.width = 64 ∨ a.width = 0 then BitVec.allOnes 64 else (1#64 <<< a.width) - 1#64)], rfl, rfl, ?_⟩
      rw [Arith.wordsVal_singleton]
      by_cases h0 : a.width = 0
      · rw [if_pos h0, if_pos (.inr h0), BitVec.and_allOnes]
      · rw [if_neg h0]
        obtain ⟨mk, h1, h2, _⟩ := Arith.mask_spec (k := a.width) (by omega) (by omega)
        rw [Arith.mask_ok (by omega)] at h1
        cases h1
        rw [BitVec.toNat_and, h2, Nat.and_two_pow_sub_one_eq_mod]
  | k + 2 =>
    rw [if_neg (by omega), if_neg (by omega), if_neg (by omega)]
    have e : Arith.assign (List.replicate (k + 2) 0#64) [v] = v :: List.replicate (k + 1) 0#64 := by
      rw [Arith.assign_eq, List.length_replicate, List.length_singleton, List.drop_replicate]
      rfl
    unfold Arith.signExtend
    dsimp only
    rw [e, wordNeg_spec, ok_bind, show 64 % BITS = 0 from rfl, if_neg (show ¬ 0 > 0 by decide), List.length_singleton, ok_bind]
    by_cases hs : v.toNat < 2 ^ 63
    · rw [decide_eq_false (by omega), if_neg (by decide), if_pos hs, Arith.modifyRange_tail (by simp)]
      refine ⟨_, rfl, by simp [Arith.clear], ?_⟩
      rw [Arith.clear_eq, List.take_succ_cons, List.take_zero, List.singleton_append, wordsVal_single_zeros]
    · rw [decide_eq_true (by omega), if_pos rfl, if_neg hs, Arith.modifyRange_tail (by simp), ok_bind]
      have hm := Arith.maskMsb_any m (List.take 1 (v :: List.replicate (k + 1) 0#64) ++ Arith.set (List.drop 1 (v :: List.replicate (k + 1) 0#64)))
        a.width
      rw [Arith.set_eq, List.take_succ_cons, List.take_zero, List.singleton_append, wordsVal_cons, Arith.wordsVal_ones] at hm
      simp only [List.length_cons, List.drop_succ_cons, List.drop_zero, List.length_replicate] at hm
      rw [Arith.set_eq, List.take_succ_cons, List.take_zero, List.singleton_append]
      simp only [List.drop_succ_cons, List.drop_zero, List.length_replicate]
      have e2 : v.toNat + 2 ^ 64 * (2 ^ (64 * (k + 1)) - 1) = 2 ^ (64 * (k + 2)) - 2 ^ 64 + v.toNat := by
        rw [show 64 * (k + 2) = 64 + 64 * (k + 1) by omega, Nat.pow_add, Nat.mul_sub, Nat.mul_one]
        omega
      rw [e2] at hm
      exact hm

/-- **C106** `assign_from_i64`, for the two's complement of the number. -/
theorem C106_assign_from_i64 (m : Mode) (v : Word) (ha : a.width < 2 ^ 32) :
    Makes (BitVecValue.assignFromI64 m a v) (a.shape.setI64 m v.toNat) := by
  have hw := writeI64_any m v a
  have e : BitVecValue.assignFromI64 m a v = (do
      let ws ← (if (BitVecValue.clear a).words.length = 1 then do
          let mk ← Arith.mask a.width
          setIdx (BitVecValue.clear a).words 0 (v &&& mk)
        else Arith.signExtend m (BitVecValue.clear a).words [v] 64 a.width)
      BitVecValue.checkI64 m ⟨a.width, ws⟩ v
      ok ⟨a.width, ws⟩) := by
    unfold BitVecValue.assignFromI64
    dsimp only
    by_cases h1 : (BitVecValue.clear a).words.length = 1
    · rw [if_pos h1, if_pos h1]
      cases Arith.mask a.width with
      | panic p => rfl
      | ok mk =>
        rw [ok_bind, ok_bind]
        cases setIdx (BitVecValue.clear a).words 0 (v &&& mk) <;> rfl
    · rw [if_neg h1, if_neg h1]
      cases Arith.signExtend m (BitVecValue.clear a).words [v] 64 a.width <;> rfl
  rw [e]
  unfold Shape.setI64
  cases hK : a.shape.writeI64 m v.toNat with
  | none =>
    rw [hK] at hw
    exact panics_bind' _ hw
  | some K =>
    rw [hK] at hw
    obtain ⟨r, h1, h2, h3⟩ := hw
    have hne : r.length ≠ 0 := by
      intro h0
      have h0 : a.shape.words = 0 := by rw [← h0, h2]; rfl
      unfold Shape.writeI64 at hK
      rw [if_pos h0] at hK
      cases hK
    rw [h1, ok_bind]
    show Makes _ (if m = .debug ∧ (a.width = 0 ∨ (if K.testBit (fitted a.width a.words.length - 1) = true ∧ a.width < 64 then
        K % 2 ^ 64 ||| (2 ^ 64 - 2 ^ a.width) else K % 2 ^ 64) ≠ v.toNat) then none else some ⟨a.width, a.words.length, K⟩)
    have hok : Makes (ok (⟨a.width, r⟩ : BitVecValue)) (some ⟨a.width, a.words.length, K⟩) := by
      refine ⟨_, rfl, ?_, ha⟩
      unfold BitVecValue.shape
      dsimp only
      rw [h2, h3]
    cases m with
    | release =>
      rw [if_neg (fun h => by cases h.1)]
      exact hok
    | debug =>
      by_cases h0 : a.width = 0
      · rw [if_pos ⟨rfl, .inl h0⟩]
        exact panics_bind' _ (panics_bind' _ ((Arith.isNeg_list .debug r a.width).1 (.inr ⟨rfl, h0⟩)))
      · have hi := idx_low r
        rw [if_neg hne] at hi
        have hchk : ∀ (x : Word) (X : Nat), x.toNat = X → Makes (do debugAssert .debug (x == v); ok (⟨a.width, r⟩ : BitVecValue))
            (if X ≠ v.toNat then none else some ⟨a.width, a.words.length, K⟩) := by
          rintro x _ rfl
          by_cases hx : x = v
          · rw [if_neg (fun h => h (by rw [hx])), debugAssert_of (by simpa using hx), ok_bind]
            exact hok
          · rw [if_pos (fun h => hx (BitVec.eq_of_toNat_eq h))]
            exact panics_bind' _ (debugAssert_panics (by simpa using hx))
        have hif : ∀ X : Nat, (if Mode.debug = .debug ∧ (a.width = 0 ∨ X ≠ v.toNat) then none else some (⟨a.width, a.words.length, K⟩ : Shape)) =
            if X ≠ v.toNat then none else some ⟨a.width, a.words.length, K⟩ := by
          intro X
          by_cases hX : X ≠ v.toNat
          · rw [if_pos ⟨rfl, .inr hX⟩, if_pos hX]
          · rw [if_neg (fun h => (h.2.elim h0 hX)), if_neg hX]
        rw [hif]
        unfold BitVecValue.checkI64 BitVecValue.isNegative
        dsimp only
        rw [(Arith.isNeg_list .debug r a.width).2 (by simp only [not_or]; exact ⟨hne, fun h => h0 h.2⟩), ok_bind, h3, h2,
          show idx r 0 = _ from hi, h3]
        by_cases hn : K.testBit (fitted a.width a.words.length - 1) = true
        · rw [if_pos hn]
          by_cases h64 : a.width < 64
          · obtain ⟨mk, hm1, _, hm3⟩ := Arith.mask_spec (k := 64 - a.width) (by omega) (by omega)
            rw [if_pos (show a.width < BITS from h64), show BITS - a.width = 64 - a.width from rfl, hm1, ok_bind, ok_bind]
            simp only [if_pos (show K.testBit (fitted a.width a.words.length - 1) = true ∧ a.width < 64 from ⟨hn, h64⟩)]
            refine hchk _ _ (Nat.eq_of_testBit_eq fun i => ?_)
            rw [BitVec.testBit_toNat, BitVec.getLsbD_or, BitVec.getLsbD_shiftLeft, hm3, BitVec.getLsbD_ofNat, Nat.testBit_or,
              Arith.testBit_high (by omega), Nat.testBit_mod_two_pow]
            by_cases hi : i < 64
            · by_cases h : i < a.width
              · rw [decide_eq_true hi, decide_eq_true h, decide_eq_false (show ¬ a.width ≤ i by omega)]; simp
              · rw [decide_eq_true hi, decide_eq_false h, decide_eq_true (show i - a.width < 64 - a.width by omega),
                  decide_eq_true (show a.width ≤ i by omega)]; simp
            · rw [decide_eq_false hi]; simp
          · rw [if_neg (show ¬ a.width < BITS from h64), ok_bind]
            simp only [if_neg (show ¬ (K.testBit (fitted a.width a.words.length - 1) = true ∧ a.width < 64) from fun h => h64 h.2)]
            exact hchk _ _ (BitVec.toNat_ofNat ..)
        · rw [if_neg hn, ok_bind]
          simp only [if_neg (show ¬ (K.testBit (fitted a.width a.words.length - 1) = true ∧ a.width < 64) from fun h => hn h.1)]
          exact hchk _ _ (BitVec.toNat_ofNat ..)

/-! ## Examples -/

/-- A width of eight bits with two words. -/
example : Returns (BitVecValue.toBitStr ⟨8, [1#64, 7#64]⟩) (some (numeral 2 (7 * 2 ^ 64 + 1) 72)) := C106_to_bit_str ⟨8, [1#64, 7#64]⟩

example : Returns (BitVecValue.toHexStr .debug ⟨8, [1#64, 7#64]⟩) none := C106_to_hex_str .debug ⟨8, [1#64, 7#64]⟩

example : BitVecValue.toU64 ⟨8, [1#64, 7#64]⟩ = none := C106_to_u64 ⟨8, [1#64, 7#64]⟩

/-- A width of a hundred bits with one word. -/
example : Returns (BitVecValue.toI64 .release ⟨100, [5#64]⟩) (some none) := C106_to_i64 .release ⟨100, [5#64]⟩

example : Returns (BitVecValue.toHexStr .release ⟨68, [0xabc#64]⟩) (some [ch 'c']) := C106_to_hex_str .release ⟨68, [0xabc#64]⟩

example : Returns (BitVecValue.toHexStrSigned .release ⟨9, [0x1ff#64]⟩) (some [ch '-', ch '0', ch '1']) :=
  C106_to_hex_str_signed .release ⟨9, [0x1ff#64]⟩

/-- No words at all. -/
example : Makes (BitVecValue.assignFromU64 .release ⟨8, []⟩ 1#64) none := C106_assign_from_u64 (a := ⟨8, []⟩) .release 1#64 (by decide)

example : Makes (BitVecValue.assignFromI64 .release ⟨8, [3#64, 3#64]⟩ (-1)) (some ⟨8, 2, 2 ^ 72 - 1⟩) :=
  C106_assign_from_i64 (a := ⟨8, [3#64, 3#64]⟩) .release (-1) (by decide)

end Baa
