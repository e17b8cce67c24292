import Verif.Props.Raw
import Verif.Props.BytesBig
import Verif.Props.Strings
import Verif.Spec.Expressions

/-!
# C87: what the observers report about arbitrary words

C86 predicts the number held by the words of every computation. This file says what each way of looking at a value reports about that
number, whether or not it has bits above the width.
-/

namespace Baa
open Res BitVecValue Strings

/-! ## Predicates and machine integers -/

/-- **C87** `to_u64` reports the number in all the words. -/
theorem C87_to_u64 {w N : Nat} {a : BitVecValue} (ha : Raw a w N) :
    BitVecValue.toU64 a = if N < 2 ^ 64 then some (BitVec.ofNat 64 N) else none := by
  unfold BitVecValue.toU64
  rw [Arith.any_ne_zero_iff]
  have hval := ha.val_eq
  cases h : a.words with
  | nil =>
    rw [h, wordsVal_nil] at hval
    simp [← hval]
  | cons w0 ws =>
    rw [h, wordsVal_cons] at hval
    have hw0 := w0.isLt
    simp only [List.drop_one, List.tail_cons, List.head?_cons, Option.getD_some, decide_eq_true_eq]
    by_cases h1 : wordsVal ws = 0
    · rw [h1] at hval
      rw [if_neg (by omega), if_pos (by omega)]
      congr 1
      apply BitVec.eq_of_toNat_eq
      rw [BitVec.toNat_ofNat, ← hval, Nat.mul_zero, Nat.add_zero, Nat.mod_eq_of_lt hw0]
    · rw [if_pos h1, if_neg (by omega)]

/-- **C87** `is_zero` looks at all bits. -/
theorem C87_is_zero {w N : Nat} {a : BitVecValue} (ha : Raw a w N) : BitVecValue.isZero a = decide (N = 0) := by
  unfold BitVecValue.isZero
  rw [all_zero_iff, ha.val_eq]

theorem Raw.single {N : Nat} {w : Nat} {a : BitVecValue} (ha : Raw a w N) (h0 : 0 < w) (hw : w ≤ 64) :
    ∃ a0 : Word, a.words = [a0] ∧ a0.toNat = N := by
  obtain ⟨a0, h⟩ := List.length_eq_one_iff.mp (show a.words.length = 1 by rw [ha.length_eq]; omega)
  exact ⟨a0, h, by have := ha.val_eq; rwa [h, Arith.wordsVal_singleton] at this⟩

theorem word_beq (u : Word) (n : Nat) (hn : n < 2 ^ 64) : (u == BitVec.ofNat 64 n) = decide (u.toNat = n) := by
  by_cases h : u.toNat = n
  · rw [decide_eq_true h, beq_iff_eq]
    apply BitVec.eq_of_toNat_eq
    rw [BitVec.toNat_ofNat, Nat.mod_eq_of_lt hn, h]
  · rw [decide_eq_false h, beq_eq_false_iff_ne]
    intro e
    rw [e, BitVec.toNat_ofNat, Nat.mod_eq_of_lt hn] at h
    exact h rfl

/-- **C87** `is_tru` and `is_fals` look at all bits of the word, `to_bool` only at the lowest. All three are about one-bit values. -/
theorem C87_bools {w N : Nat} {a : BitVecValue} (ha : Raw a w N) :
    BitVecValue.isTru a = ok (decide (w = 1 ∧ N = 1)) ∧ BitVecValue.isFals a = ok (decide (w = 1 ∧ N = 0)) ∧
    BitVecValue.toBool a = ok (if w = 1 then some (N.testBit 0) else none) := by
  unfold BitVecValue.isTru BitVecValue.isFals BitVecValue.toBool
  rw [ha.width_eq]
  by_cases h : w = 1
  · subst h
    obtain ⟨a0, h1, rfl⟩ := ha.single (by decide) (by decide)
    rw [if_pos rfl, if_pos rfl, if_pos rfl, if_pos rfl, h1]
    simp only [idx, List.getElem?_cons_zero, ok_bind]
    refine ⟨by rw [word_beq _ 1 (by decide)]; simp, by rw [word_beq _ 0 (by decide)]; simp, ?_⟩
    have := Arith.and_one_beq a0 0
    rw [BitVec.ushiftRight_zero] at this
    rw [Arith.wordToBool, this, BitVec.testBit_toNat]
  · rw [if_neg h, if_neg h, if_neg h, if_neg h]
    simp [h]

/-- **C87** `is_negative` is the bit below the width, `is_bit_set` any bit of the words. -/
theorem C87_bits (m : Mode) {w N : Nat} {a : BitVecValue} (ha : Raw a w N) :
    (0 < w → BitVecValue.isNegative m a = ok (N.testBit (w - 1))) ∧
    ∀ pos, BitVecValue.isBitSet a pos = if pos < capacity w then ok (N.testBit pos) else panic .bounds := by
  refine ⟨fun hw => ?_, fun pos => ?_⟩
  · unfold BitVecValue.isNegative
    rw [ha.width_eq, Arith.isNeg_spec hw ha.length_eq, ha.bit]
  · by_cases h : pos < capacity w
    · rw [if_pos h]
      unfold capacity at h
      unfold BitVecValue.isBitSet
      rw [Arith.isBitSet_spec (by rw [ha.length_eq]; omega), ha.bit]
    · rw [if_neg h]
      unfold capacity at h
      unfold BitVecValue.isBitSet Arith.isBitSet
      have : ¬ pos / BITS < a.words.length := by rw [ha.length_eq]; simp only [BITS]; omega
      simp only [idx, List.getElem?_eq_none (Nat.le_of_not_lt this)]
      rfl

/-- **C87** `to_i64`. -/
theorem C87_to_i64 (m : Mode) {w N : Nat} {a : BitVecValue} (ha : Raw a w N) : BitVecValue.toI64 m a = ok (i64Of w N) := by
  unfold BitVecValue.toI64 i64Of
  rw [ha.width_eq]
  by_cases h0 : w = 0
  · subst h0; rfl
  by_cases hw : w ≤ 64
  · rw [if_pos hw, if_neg h0, if_neg h0, if_pos hw]
    obtain ⟨a0, h1, rfl⟩ := ha.single (by omega) hw
    have e0 : BitVec.ofNat 64 a0.toNat = a0 := by simp
    by_cases h64 : w = 64
    · subst h64
      rw [if_pos rfl, h1]
      simp only [idx, List.getElem?_cons_zero, ok_bind, e0]
      congr 2
      split
      · simp
      · rfl
    · rw [if_neg h64, debugAssert_of (by simp [h1]), ok_bind, Arith.isNeg_spec (by omega) ha.length_eq, ok_bind, ha.bit]
      by_cases hn : a0.toNat.testBit (w - 1) = true
      · obtain ⟨mk, hm1, _, hm3⟩ := Arith.mask_spec (k := 64 - w) (by omega) (by omega)
        rw [if_pos hn, if_pos hn]
        simp only [BITS, hm1, h1, idx, List.getElem?_cons_zero, ok_bind]
        congr 2
        apply BitVec.eq_of_getLsbD_eq
        intro i hi
        rw [BitVec.getLsbD_or, BitVec.getLsbD_shiftLeft, hm3, BitVec.getLsbD_signExtend, BitVec.msb_eq_getLsbD_last,
          BitVec.getLsbD_ofNat, BitVec.getLsbD_ofNat, hn, decide_eq_true hi, decide_eq_true (show w - 1 < w by omega),
          BitVec.testBit_toNat]
        by_cases h : i < w
        · rw [if_pos h, decide_eq_true h]; simp
        · have : i - w < 64 - w := by omega
          rw [if_neg h, decide_eq_false h, decide_eq_true this]; simp
      · rw [if_neg hn, if_neg hn, h1]
        simp only [idx, List.getElem?_cons_zero, ok_bind, e0]
  · rw [if_neg hw, if_neg h0, if_neg hw]
    have hlen := ha.length_eq
    have hval := ha.val_eq
    obtain ⟨w0, ws, hws⟩ : ∃ w0 ws, a.words = w0 :: ws := by
      cases h : a.words with
      | nil => rw [h] at hlen; simp at hlen; omega
      | cons p q => exact ⟨p, q, rfl⟩
    rw [hws, List.length_cons] at hlen
    rw [hws, wordsVal_cons] at hval
    have hw0 := w0.isLt
    have hwsl := wordsVal_lt ws
    have hcap : 2 ^ capacity w = 2 ^ 64 * 2 ^ (64 * ws.length) := by
      rw [← Nat.pow_add, capacity]; congr 1; omega
    have hP : 2 ^ 64 ≤ 2 ^ (64 * ws.length) := Nat.pow_le_pow_right (by decide) (by omega)
    have hN : BitVec.ofNat 64 N = w0 := by
      apply BitVec.eq_of_toNat_eq
      rw [BitVec.toNat_ofNat]; omega
    rw [hcap, hN]
    simp only [hws, List.drop_one, List.tail_cons, idx, List.getElem?_cons_zero, ok_bind, all_zero_iff, all_max_iff, BITS, wordNeg_spec]
    generalize wordsVal ws = V at *
    generalize 2 ^ (64 * ws.length) = P at *
    by_cases hz : V = 0
    · have hm : ¬ V + 1 = P := by omega
      rw [decide_eq_true hz, decide_eq_false hm]
      by_cases hn : 2 ^ 63 ≤ w0.toNat
      · rw [decide_eq_true hn, if_neg (by omega)]
      · rw [decide_eq_false hn, if_pos (by omega)]
    · rw [decide_eq_false hz]
      by_cases hm : V + 1 = P
      · rw [decide_eq_true hm]
        by_cases hn : 2 ^ 63 ≤ w0.toNat
        · rw [decide_eq_true hn, if_pos (by omega)]
        · rw [decide_eq_false hn, if_neg (by omega)]
      · rw [decide_eq_false hm, if_neg (by omega)]

/-! ## Comparisons -/

/-- **C87** the comparisons, of two values of the same width. `is_greater_or_equal` and `is_less_or_equal` are strict above 64 bits (C17). -/
theorem C87_compare (m : Mode) {w N M : Nat} {a b : BitVecValue} (ha : Raw a w N) (hb : Raw b w M) :
    BitVecValue.isEqual m a b = ok (decide (N = M)) ∧ BitVecValue.isNotEqual m a b = ok (decide (N ≠ M)) ∧
    BitVecValue.isGreater m a b = ok (decide (N > M)) ∧ BitVecValue.isLess m a b = ok (decide (N < M)) ∧
    BitVecValue.eqOwned m a b = ok (decide (N = M)) ∧ BitVecValue.eqRef m a b = ok (decide (N = M)) ∧
    (0 < w → BitVecValue.isGreaterOrEqual m a b = ok (if w ≤ 64 then decide (N ≥ M) else decide (N > M))) ∧
    (0 < w → BitVecValue.isLessOrEqual m a b = ok (if w ≤ 64 then decide (N ≤ M) else decide (N < M))) := by
  have hge : ∀ {a b : BitVecValue} {N M : Nat}, Raw a w N → Raw b w M → 0 < w →
      BitVecValue.isGreaterOrEqual m a b = ok (if w ≤ 64 then decide (N ≥ M) else decide (N > M)) := by
    intro a b N M ha hb h0
    have hl : a.words.length = b.words.length := by rw [ha.length_eq, hb.length_eq]
    unfold BitVecValue.isGreaterOrEqual
    rw [assertSame_ok (by rw [ha.width_eq, hb.width_eq]) hl, ok_bind]
    by_cases h : w ≤ 64
    · have h1 : a.words.length = 1 := by rw [ha.length_eq]; omega
      rw [if_pos h, if_pos h1, sliceR_full h1, ok_bind, sliceR_full (by omega), ok_bind, Arith.cmpGreaterEqual_spec hl, ha.val_eq, hb.val_eq]
    · have h1 : ¬ a.words.length = 1 := by rw [ha.length_eq]; omega
      rw [if_neg h, if_neg h1, Arith.cmpGreater_spec hl, ha.val_eq, hb.val_eq]
  have hw : b.words = a.words ↔ N = M := by
    constructor
    · intro h; rw [← ha.val_eq, ← hb.val_eq, h]
    · intro h; exact wordsVal_inj (by rw [ha.length_eq, hb.length_eq]) (by rw [ha.val_eq, hb.val_eq, h])
  refine ⟨raw_eq m ha hb, ?_, raw_gt m ha hb, raw_gt m hb ha, ?_, ?_, hge ha hb, fun h => hge hb ha h⟩
  · unfold BitVecValue.isNotEqual
    rw [raw_eq m ha hb, ok_bind]
    simp
  · unfold BitVecValue.eqOwned
    rw [debugAssert_of (by simp [ha.length_eq, hb.length_eq]), ok_bind]
    congr 1
    rw [ha.width_eq, hb.width_eq]
    simp only [beq_self_eq_true, Bool.true_and]
    by_cases h : N = M
    · rw [decide_eq_true h, beq_iff_eq]; exact hw.mpr h
    · rw [decide_eq_false h, beq_eq_false_iff_ne]; exact fun e => h (hw.mp e)
  · unfold BitVecValue.eqRef
    rw [if_pos (by rw [ha.width_eq, hb.width_eq]), raw_eq m ha hb]

/-- **C87** the signed comparisons look at the bits below the width, `w - 1`, first; if these agree they compare the numbers in all the
words. -/
theorem C87_compare_signed (m : Mode) {w N M : Nat} (hw : 0 < w) {a b : BitVecValue} (ha : Raw a w N) (hb : Raw b w M) :
    let s := N.testBit (w - 1)
    let t := M.testBit (w - 1)
    BitVecValue.isGreaterSigned m a b = ok (if s = t then decide (N > M) else t) ∧
    BitVecValue.isLessSigned m a b = ok (if s = t then decide (N < M) else s) ∧
    BitVecValue.isGreaterOrEqualSigned m a b = ok (if s = t then decide (N ≥ M) else t) ∧
    BitVecValue.isLessOrEqualSigned m a b = ok (if s = t then decide (N ≤ M) else s) := by
  have hg := raw_sgt m hw hb ha
  have he := raw_sge m hw hb ha
  refine ⟨raw_sgt m hw ha hb, ?_, raw_sge m hw ha hb, ?_⟩
  · rw [BitVecValue.isLessSigned, hg]
    congr 1
    by_cases h : N.testBit (w - 1) = M.testBit (w - 1)
    · rw [if_pos h, if_pos h.symm]
    · rw [if_neg h, if_neg (Ne.symm h)]
  · rw [BitVecValue.isLessOrEqualSigned, he]
    congr 1
    by_cases h : N.testBit (w - 1) = M.testBit (w - 1)
    · rw [if_pos h, if_pos h.symm]
    · rw [if_neg h, if_neg (Ne.symm h)]

/-- Non-vacuity: a 4-bit zero with a stray bit is neither equal to nor less than zero, also signed; the sign still counts first. -/
example : Raw ⟨4, [16#64]⟩ 4 16 ∧ BitVecValue.isGreaterSigned .debug ⟨4, [16#64]⟩ (encode 0#4) = ok true ∧
    BitVecValue.isLessOrEqualSigned .debug (encode 8#4) ⟨4, [16#64]⟩ = ok true ∧
    BitVecValue.isGreaterOrEqualSigned .debug ⟨4, [24#64]⟩ (encode 1#4) = ok false := by
  refine ⟨?_, by decide, by decide, by decide⟩
  constructor <;> decide

/-! ## Text, bytes, big integers -/

/-- **C87** `to_bit_str` prints the bits below the width. -/
theorem C87_to_bit_str {w N : Nat} (hw : 0 < w) {a : BitVecValue} (ha : Raw a w N) :
    BitVecValue.toBitStr a = ok ((List.range w).map fun k => if N.testBit (w - 1 - k) then ch '1' else ch '0') := by
  rw [C77_to_bit_str_partial hw ha.shows]
  congr 1
  apply List.map_congr_left
  intro k hk
  have hk := List.mem_range.mp hk
  rw [BitVec.getLsbD_ofNat, decide_eq_true (show w - 1 - k < w by omega), Bool.true_and]
  rfl

/-- **C87** `to_hex_str` prints `⌈w/4⌉` digits: up to three bits above the width are visible in the first one. -/
theorem C87_to_hex_str (m : Mode) {w N : Nat} (hw : 0 < w) {a : BitVecValue} (ha : Raw a w N) :
    ∃ s, BitVecValue.toHexStr m a = ok s ∧ s.length = (w + 3) / 4 ∧ (∀ c ∈ s, c ∈ lowerDigits.take 16) ∧
      digitsVal 16 s = some (N % 16 ^ ((w + 3) / 4)) := by
  unfold BitVecValue.toHexStr Strings.toHexStr
  rw [ha.width_eq, toHexStrInternal_eq ha.length_eq hw, List.nil_append]
  refine ⟨_, rfl, msbDigits_length _ _ _ _, ?_, ?_⟩
  · intro c hc
    unfold msbDigits at hc
    obtain ⟨i, _, rfl⟩ := List.mem_map.mp hc
    have : ∀ d, d < 16 → hexChar d ∈ lowerDigits.take 16 := by decide
    exact this _ (Nat.mod_lt _ (by decide))
  · unfold digitsVal
    rw [if_neg (by intro e; have := msbDigits_length 16 hexChar (wordsVal a.words) ((w + 3) / 4); rw [e] at this; simp at this; omega),
      digitsFrom_msbDigits (by decide) digitOf_hexChar, ha.val_eq]
    simp

/-- **C87** `to_dec_str` prints the number in all the words if it is below `2^128`, and panics otherwise. -/
theorem C87_to_dec_str (m : Mode) {w N : Nat} {a : BitVecValue} (ha : Raw a w N) :
    if N < 2 ^ 128 ∧ (m = .release ∨ w * 3 < 2 ^ 32) then ∃ s, BitVecValue.toDecStr m a = ok s ∧ IsDecimal N s
    else Panics (BitVecValue.toDecStr m a) := by
  unfold BitVecValue.toDecStr Strings.toDecStr
  rw [ha.width_eq]
  have hok : (m = .release ∨ w * 3 < 2 ^ 32) → ∃ k, mulC m U32 w 3 = ok k := by
    rintro (hw | hw)
    · subst hw
      unfold mulC
      split <;> exact ⟨_, rfl⟩
    · exact ⟨_, mulC_ok hw⟩
  split
  · rename_i h
    obtain ⟨k, hk⟩ := hok h.2
    refine ⟨decimal N, ?_, ?_, ?_⟩
    · rw [hk, ok_bind, toDecStrInternal_eq m (by rw [ha.val_eq]; exact h.1), ha.val_eq]
    · unfold digitsVal
      rw [if_neg (decimal_ne_nil _), digitsFrom_decimal]
    · intro h
      by_cases h0 : N = 0
      · rw [h0, decimal_zero]
      · exact absurd h (decimal_head h0)
  · rename_i h
    cases hk : mulC m U32 w 3 with
    | panic p => exact ⟨p, rfl⟩
    | ok k =>
      by_cases hN : N < 2 ^ 128
      · exfalso
        apply h ⟨hN, _⟩
        cases m with
        | release => exact .inl rfl
        | debug =>
          right
          unfold mulC at hk
          split at hk
          · assumption
          · cases hk
      · exact ⟨.todo, by rw [ok_bind, toDecStrInternal_todo m (by rw [ha.val_eq]; omega)]⟩

/-- **C87** `to_bytes_le` reports `⌈w/8⌉` bytes: up to seven bits above the width are visible in the last one. -/
theorem C87_to_bytes_le {w N : Nat} {a : BitVecValue} (ha : Raw a w N) :
    (BitVecValue.toBytesLe a).length = (w + 7) / 8 ∧ bytesVal (BitVecValue.toBytesLe a) = N % 2 ^ (8 * ((w + 7) / 8)) := by
  unfold BitVecValue.toBytesLe
  rw [Bytes.toBytesLe_eq, ha.width_eq]
  constructor
  · rw [List.length_take, Bytes.length_flatMap, ha.length_eq]; omega
  · rw [bytesVal_take, Bytes.bytesVal_flatMap, ha.val_eq]

/-- **C87** `to_big_uint` is the number in all the words. -/
theorem C87_to_big_uint {w N : Nat} {a : BitVecValue} (ha : Raw a w N) : BitVecValue.toBigUint a = N := by
  unfold BitVecValue.toBigUint
  rw [Big.toBigUint_eq, ha.val_eq]

/-- **C87** `to_big_int`: a value with the sign bit set is read as the two's complement number below the width, any other as the number
in all the words. -/
theorem C87_to_big_int (m : Mode) {w N : Nat} (hw : 0 < w) {a : BitVecValue} (ha : Raw a w N) :
    BitVecValue.toBigInt m a = ok (if N.testBit (w - 1) = true then (low w N).toInt else (N : Int)) := by
  unfold BitVecValue.toBigInt Big.toBigInt
  rw [ha.width_eq, if_neg (by omega)]
  have hs : Big.getSign m a.words w = Arith.isNeg m a.words w := rfl
  rw [hs, Arith.isNeg_spec hw ha.length_eq, ok_bind, ha.bit]
  by_cases hn : N.testBit (w - 1) = true
  · rw [if_pos hn, if_pos hn, Arith.negate, if_pos (by simp)]
    obtain ⟨r, h1, h2, h3⟩ := Arith.negateInPlace_spec (m := m) hw ha.length_eq
    rw [h1, ok_bind, show Big.fromSlice32 (Big.wordsToU32 r) = wordsVal r from Big.toBigUint_eq r, h3]
    dsimp only
    rw [if_pos hn]
    congr 1
    have hb : (low w N).getLsbD (w - 1) = true := by
      rw [BitVec.getLsbD_ofNat, hn, decide_eq_true (show w - 1 < w by omega)]; rfl
    have e := sub_mod_pow 0 (wordsVal a.words) (w := w) (N := 64 * a.words.length) (by rw [ha.length_eq]; omega) (wordsVal_lt _)
    rw [Nat.zero_add, Nat.zero_mod, Nat.zero_add, ha.shows.val_mod] at e
    rw [e]
    generalize low w N = x at *
    have hti := toInt_of_bit x
    have hx := x.isLt
    rw [if_pos hb] at hti
    have hmsb := BitVec.msb_eq_decide x
    rw [BitVec.msb_eq_getLsbD_last, hb] at hmsb
    have hge : 2 ^ (w - 1) ≤ x.toNat := by simpa using hmsb.symm
    have hp : 0 < 2 ^ (w - 1) := Nat.two_pow_pos _
    have hpw : ((2 ^ w : Nat) : Int) = (2 : Int) ^ w := by norm_cast
    rw [Nat.mod_eq_of_lt (by omega), hti]
    omega
  · rw [if_neg hn, if_neg hn, ok_bind, show Big.fromSlice32 (Big.wordsToU32 a.words) = wordsVal a.words from Big.toBigUint_eq _,
      ha.val_eq]
    dsimp only
    rw [if_neg hn]

theorem digitsVal_msb {b : Nat} (hb : 0 < b) {f : Nat → Byte} (hf : ∀ d, d < b → digitOf b (f d) = some d) {v n : Nat} (hn : 0 < n) :
    digitsVal b (msbDigits b f v n) = some (v % b ^ n) := by
  unfold digitsVal
  rw [if_neg (by intro e; have := msbDigits_length b f v n; rw [e] at this; simp at this; omega), digitsFrom_msbDigits hb hf]
  simp

/-- The words that are printed by the signed text functions. -/
theorem signed_words (m : Mode) {w N : Nat} (hw : 0 < w) {a : BitVecValue} (ha : Raw a w N) :
    Arith.isNeg m a.words w = ok (N.testBit (w - 1)) ∧
    ∃ r, Arith.negateInPlace m a.words w = ok r ∧ r.length = (w + 63) / 64 ∧ wordsVal r = (-low w N).toNat := by
  refine ⟨by rw [Arith.isNeg_spec hw ha.length_eq, ha.bit], ?_⟩
  obtain ⟨r, h1, h2, h3⟩ := Arith.negateInPlace_spec (m := m) hw ha.length_eq
  refine ⟨r, h1, h2, ?_⟩
  have := sub_mod_pow 0 (wordsVal a.words) (w := w) (N := 64 * a.words.length) (by rw [ha.length_eq]; omega) (wordsVal_lt _)
  rw [Nat.zero_add, Nat.zero_mod, Nat.zero_add, ha.shows.val_mod] at this
  rw [h3, this, BitVec.toNat_neg]

/-- **C87** `to_bit_str_signed` prints a sign and the low `w - 1` digits of the magnitude; if `w - 1` is a multiple of 64, it prints 64
more. -/
theorem C87_to_bit_str_signed (m : Mode) {w N : Nat} (hw : 2 ≤ w) {a : BitVecValue} (ha : Raw a w N) :
    ∃ ds, BitVecValue.toBitStrSigned m a = ok ((if N.testBit (w - 1) = true then [ch '-'] else []) ++ ds) ∧
      ds.length = (if w % 64 = 1 then w + 63 else w - 1) ∧ digitsVal 2 ds = some (magnitude w N % 2 ^ ds.length) := by
  obtain ⟨h1, r, h2, h3, h4⟩ := signed_words m (by omega) ha
  have hne : ∀ ws : List Word, ws.length = (w + 63) / 64 → ws ≠ [] := by
    intro ws h e; rw [e] at h; simp at h; omega
  have hlen : (w - 1 - 1) % 64 + 1 + 64 * ((w + 63) / 64 - 1) = (if w % 64 = 1 then w + 63 else w - 1) := by
    split <;> omega
  have hpos : 0 < (if w % 64 = 1 then w + 63 else w - 1) := by split <;> omega
  unfold BitVecValue.toBitStrSigned Strings.toBitStrSigned
  rw [ha.width_eq, h1, ok_bind, subC_ok (by omega), magnitude]
  by_cases hn : N.testBit (w - 1) = true
  · rw [if_pos hn, if_pos hn, if_pos hn, h2, ok_bind, ok_bind, toBitStrInternal_eq (by omega) (hne r h3), h3, hlen, h4]
    refine ⟨_, rfl, msbDigits_length _ _ _ _, ?_⟩
    rw [msbDigits_length, digitsVal_msb (by decide) digitOf_binChar hpos]
  · rw [if_neg hn, if_neg hn, if_neg hn, ok_bind, Strings.toBitStr, toBitStrInternal_eq (by omega) (hne _ ha.length_eq), ha.length_eq,
      hlen, ha.val_eq]
    refine ⟨_, rfl, msbDigits_length _ _ _ _, ?_⟩
    rw [msbDigits_length, digitsVal_msb (by decide) digitOf_binChar hpos]

theorem mod_sixteen {M n k : Nat} (h : 4 * n ≤ k) : M % 2 ^ k % 16 ^ n = M % 16 ^ n := by
  rw [sixteen_pow, Arith.pow_mod_pow_mod _ h]

/-- **C87** `to_hex_str_signed` prints a sign and the low `⌈(w-1)/4⌉` digits of the magnitude. -/
theorem C87_to_hex_str_signed (m : Mode) {w N : Nat} (hw : 2 ≤ w) {a : BitVecValue} (ha : Raw a w N) :
    ∃ ds, BitVecValue.toHexStrSigned m a = ok ((if N.testBit (w - 1) = true then [ch '-'] else []) ++ ds) ∧
      ds.length = (w - 1 + 3) / 4 ∧ digitsVal 16 ds = some (magnitude w N % 16 ^ ds.length) := by
  obtain ⟨h1, r, h2, h3, h4⟩ := signed_words m (by omega) ha
  have hle : 4 * ((w - 1 + 3) / 4) ≤ 64 * ((w - 1 + 63) / 64) := by omega
  unfold BitVecValue.toHexStrSigned Strings.toHexStrSigned
  rw [ha.width_eq, h1, ok_bind, subC_ok (by omega), magnitude]
  by_cases hn : N.testBit (w - 1) = true
  · rw [if_pos hn, if_pos hn, if_pos hn, h2, ok_bind, ok_bind, selectWordsForWidth_eq m (by omega) h3, ok_bind,
      toHexStrInternal_eq (by rw [List.length_take, Nat.min_eq_left (by omega)]) (by omega)]
    refine ⟨_, rfl, msbDigits_length _ _ _ _, ?_⟩
    rw [msbDigits_length, digitsVal_msb (by decide) digitOf_hexChar (by omega), Big.wordsVal_take, h4, mod_sixteen hle]
  · rw [if_neg hn, if_neg hn, if_neg hn, ok_bind, selectWordsForWidth_eq m (by omega) ha.length_eq, ok_bind, Strings.toHexStr,
      toHexStrInternal_eq (by rw [List.length_take, Nat.min_eq_left (by rw [ha.length_eq]; omega)]) (by omega)]
    refine ⟨_, rfl, msbDigits_length _ _ _ _, ?_⟩
    rw [msbDigits_length, digitsVal_msb (by decide) digitOf_hexChar (by omega), Big.wordsVal_take, ha.val_eq, mod_sixteen hle]

/-- **C87** one-bit values have an empty signed text. -/
theorem C87_signed_text_width_one (m : Mode) {N : Nat} {a : BitVecValue} (ha : Raw a 1 N) :
    BitVecValue.toBitStrSigned m a = ok [] ∧ BitVecValue.toHexStrSigned m a = ok [] := by
  obtain ⟨h1, r, h2, h3, h4⟩ := signed_words m (by decide) ha
  unfold BitVecValue.toBitStrSigned Strings.toBitStrSigned BitVecValue.toHexStrSigned Strings.toHexStrSigned
  rw [ha.width_eq, h1, ok_bind, ok_bind, subC_ok (by decide)]
  have hs : ∀ ws : List Word, selectWordsForWidth m ws (1 - 1) = ok [] := by
    intro ws
    have hd : divCeil (1 - 1) BITS = 0 := rfl
    unfold selectWordsForWidth
    dsimp only
    rw [hd, debugAssert_of (by simp), ok_bind, sliceR_ok (by omega) (by omega)]
    simp
  have hh : ∀ out, toHexStrInternal m [] (1 - 1) out = ok [] := by
    intro out; cases m <;> rfl
  by_cases hn : N.testBit (1 - 1) = true
  · rw [if_pos hn, if_pos hn, h2, ok_bind, ok_bind, ok_bind, ok_bind, hs, ok_bind, hh]
    exact ⟨rfl, rfl⟩
  · rw [if_neg hn, if_neg hn, ok_bind, ok_bind, hs, ok_bind, Strings.toHexStr, hh]
    exact ⟨rfl, rfl⟩

/-! ## Fixed point -/

/-- **C87** `to_unsigned_fixed_point`: the number in all the words as numerator. -/
theorem C87_to_unsigned_fixed_point (m : Mode) {w N f : Nat} {a : BitVecValue} (ha : Raw a w N) (hf : f ≤ w) (hf64 : f < 64) :
    BitVecValue.toUnsignedFixedPoint m a f = ok (if N < 2 ^ 64 then some ⟨false, N, 2 ^ f⟩ else none) := by
  unfold BitVecValue.toUnsignedFixedPoint
  have hs : shiftAmount64 m f = ok f := by simp [shiftAmount64, hf64]
  rw [ha.width_eq, debugAssert_decide_of hf, ok_bind, hs, ok_bind, C87_to_u64 ha]
  by_cases h : N < 2 ^ 64
  · rw [if_pos h, if_pos h]
    dsimp only
    rw [Option.map_some, BitVec.toNat_ofNat, Nat.mod_eq_of_lt h]
  · rw [if_neg h, if_neg h]; rfl

/-- **C87** `to_signed_fixed_point`: sign and magnitude; negative values wider than 64 bits are not converted. -/
theorem C87_to_signed_fixed_point (m : Mode) {w N f : Nat} (hw : 0 < w) {a : BitVecValue} (ha : Raw a w N) (hf : f ≤ w)
    (hf64 : f < 64) :
    BitVecValue.toSignedFixedPoint m a f =
      ok (if N.testBit (w - 1) = true ∧ 64 < w then none
        else if magnitude w N < 2 ^ 64 then some ⟨N.testBit (w - 1), magnitude w N, 2 ^ f⟩ else none) := by
  unfold BitVecValue.toSignedFixedPoint magnitude
  rw [debugAssert_decide_of (by rw [ha.width_eq]; exact hf), ok_bind, (C87_bits m ha).1 hw, ok_bind, ha.width_eq]
  by_cases hn : N.testBit (w - 1) = true
  · rw [if_pos hn, if_pos hn]
    by_cases h64 : 64 < w
    · rw [if_pos h64, if_pos ⟨hn, h64⟩]
    · obtain ⟨r, h1, h2⟩ := C77_negate_partial m hw ha.shows
      have hlt : (-low w N).toNat < 2 ^ 64 :=
        Nat.lt_of_lt_of_le (BitVec.isLt _) (Nat.pow_le_pow_right (by decide) (by omega))
      rw [if_neg h64, if_neg (fun h => h64 h.2), h1, ok_bind, C87_to_unsigned_fixed_point m h2.raw hf hf64, ok_bind, if_pos hlt,
        if_pos hlt, hn]
      rfl
  · rw [if_neg hn, if_neg hn, if_neg (fun h => hn h.1), C87_to_unsigned_fixed_point m ha hf hf64, Bool.eq_false_iff.mpr hn]

/-! ## Updates in place -/

/-- **C87** `mask_msb` removes the bits above the width. -/
theorem C87_mask_msb (m : Mode) {w N : Nat} (hw : 0 < w) {a : BitVecValue} (ha : Raw a w N) :
    ∃ r, BitVecValue.maskMsb m a = ok r ∧ Denotes r (low w N) := by
  obtain ⟨r, h1, h2, h3⟩ := Arith.maskMsb_bit (m := m) ha.length_eq hw
  refine ⟨⟨w, r⟩, ?_, Denotes.of_bit ha.width_lt rfl (by rw [← ha.length_eq]; exact h2) fun i => ?_⟩
  · unfold BitVecValue.maskMsb
    rw [ha.width_eq, h1, ok_bind, ← ha.width_eq]
  · rw [h3, ha.bit, BitVec.getLsbD_ofNat]

/-- **C87** `set_bit` and `clear_bit` change one bit of the words, also one above the width, and panic beyond the words. -/
theorem C87_set_clear_bit {w N : Nat} {a : BitVecValue} (ha : Raw a w N) (pos : Nat) :
    if pos < capacity w then
      (∃ r M, BitVecValue.setBit a pos = ok r ∧ Raw r w M ∧ ∀ i, M.testBit i = if i = pos then true else N.testBit i) ∧
      (∃ r M, BitVecValue.clearBit a pos = ok r ∧ Raw r w M ∧ ∀ i, M.testBit i = if i = pos then false else N.testBit i)
    else BitVecValue.setBit a pos = panic .bounds ∧ BitVecValue.clearBit a pos = panic .bounds := by
  split
  · rename_i hp
    have hp' : pos / 64 < a.words.length := by rw [ha.length_eq]; unfold capacity at hp; omega
    constructor
    · obtain ⟨r, h1, h2, h3⟩ := Arith.setBit_spec hp'
      refine ⟨⟨w, r⟩, wordsVal r, ?_, ⟨ha.width_lt, rfl, by rw [← ha.length_eq]; exact h2, rfl⟩, fun i => ?_⟩
      · unfold BitVecValue.setBit
        rw [h1, ok_bind, ← ha.width_eq]
      · rw [show (wordsVal r).testBit i = bit r i from rfl, h3, ha.bit]
        by_cases h : i = pos <;> simp [h]
    · obtain ⟨r, h1, h2, h3⟩ := Arith.clearBit_spec hp'
      refine ⟨⟨w, r⟩, wordsVal r, ?_, ⟨ha.width_lt, rfl, by rw [← ha.length_eq]; exact h2, rfl⟩, fun i => ?_⟩
      · unfold BitVecValue.clearBit
        rw [h1, ok_bind, ← ha.width_eq]
      · rw [show (wordsVal r).testBit i = bit r i from rfl, h3, ha.bit]
        by_cases h : i = pos <;> simp [h]
  · rename_i hp
    have hp' : a.words.length ≤ pos / 64 := by rw [ha.length_eq]; unfold capacity at hp; omega
    unfold BitVecValue.setBit BitVecValue.clearBit Arith.setBit Arith.clearBit
    simp only [idx, BITS, List.getElem?_eq_none hp']
    exact ⟨rfl, rfl⟩

/-! ## Normal form is what makes the observers agree -/

/-- **C87** (when the observers tell the truth): a value of positive width without bits above it is exactly one for which `to_big_uint`
reports the number its bit string shows. -/
theorem C87_truthful_iff {w N : Nat} {a : BitVecValue} (ha : Raw a w N) :
    Denotes a (low w N) ↔ BitVecValue.toBigUint a = (low w N).toNat := by
  rw [C87_to_big_uint ha]
  constructor
  · intro h; exact ha.val_eq.symm.trans h.val_eq
  · intro h
    exact Raw.denotes ⟨ha.width_lt, ha.width_eq, ha.length_eq, ha.val_eq.trans h⟩

/-- A 5-bit value with a stray bit: every observer. -/
example :
    let a : BitVecValue := ⟨5, [0x35#64]⟩
    Raw a 5 0x35 ∧ a.toU64 = some 0x35#64 ∧ a.toI64 .debug = ok (i64Of 5 0x35) ∧ i64Of 5 0x35 = some (-11 : BitVec 64) ∧
    a.toBitStr = ok ("10101".toList.map ch) ∧ a.toHexStr .debug = ok ("35".toList.map ch) ∧
    a.toDecStr .debug = ok ("53".toList.map ch) ∧ a.toBitStrSigned .debug = ok ("-1011".toList.map ch) ∧
    a.toHexStrSigned .debug = ok ("-b".toList.map ch) ∧ a.toBytesLe = [0x35#8] ∧ a.toBigUint = 53 ∧ a.toBigInt .debug = ok (-11) ∧
    a.toSignedFixedPoint .debug 2 = ok (some ⟨true, 11, 4⟩) ∧ a.toUnsignedFixedPoint .debug 2 = ok (some ⟨false, 53, 4⟩) ∧
    a.maskMsb .debug = ok ⟨5, [0x15#64]⟩ := by
  refine ⟨⟨by decide, rfl, rfl, by decide⟩, ?_⟩
  decide +kernel

/-- A 66-bit value, non-negative, with all stray bits set. -/
example :
    let a : BitVecValue := ⟨66, [0x8000000000000001#64, 0xfffffffffffffffc#64]⟩
    a.toI64 .debug = ok none ∧ a.toHexStr .debug = ok ("c8000000000000001".toList.map ch) ∧ a.isZero = false ∧
    a.toBytesLe = [1, 0, 0, 0, 0, 0, 0, 0x80, 0xfc] := by decide +kernel

end Baa
