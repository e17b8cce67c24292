import Verif.Proofs.ArithOps

/-! # Lemmas about byte and big-integer conversion -/

namespace Baa
open Res

/-! ## Little-endian bytes -/

theorem bytesVal_lt (bs : List Byte) : bytesVal bs < 2 ^ (8 * bs.length) := by
  induction bs with
  | nil => simp [bytesVal]
  | cons b bs ih =>
    have := b.isLt
    have e : 2 ^ (8 * (bs.length + 1)) = 2 ^ 8 * 2 ^ (8 * bs.length) := by
      rw [← Nat.pow_add]; congr 1; omega
    rw [bytesVal, List.length_cons, e]
    omega

theorem bytesVal_append (a b : List Byte) : bytesVal (a ++ b) = bytesVal a + 2 ^ (8 * a.length) * bytesVal b := by
  induction a with
  | nil => simp [bytesVal]
  | cons x a ih =>
    have e : 2 ^ (8 * (a.length + 1)) = 2 ^ 8 * 2 ^ (8 * a.length) := by
      rw [← Nat.pow_add]; congr 1; omega
    rw [List.cons_append, bytesVal, bytesVal, ih, List.length_cons, e, Nat.mul_add, Nat.mul_assoc, Nat.add_assoc]

theorem bytesVal_take (l : List Byte) (k : Nat) : bytesVal (l.take k) = bytesVal l % 2 ^ (8 * k) := by
  by_cases h : k ≤ l.length
  · have e := bytesVal_append (l.take k) (l.drop k)
    rw [List.take_append_drop, List.length_take, Nat.min_eq_left h] at e
    have hl := bytesVal_lt (l.take k)
    rw [List.length_take, Nat.min_eq_left h] at hl
    rw [e, Nat.add_mul_mod_self_left, Nat.mod_eq_of_lt hl]
  · rw [List.take_of_length_le (by omega), Nat.mod_eq_of_lt]
    exact Nat.lt_of_lt_of_le (bytesVal_lt l) (Nat.pow_le_pow_right (by decide) (by omega))

namespace Bytes

/-- The first `n` bytes of a word. -/
def wordBytes : Nat → Word → List Byte
  | 0, _ => []
  | n + 1, v => (v &&& 255#64).setWidth 8 :: wordBytes n (v >>> 8)

theorem wordBytes_length (n : Nat) (v : Word) : (wordBytes n v).length = n := by
  induction n generalizing v with
  | zero => rfl
  | succ n ih => simp [wordBytes, ih]

theorem bytesVal_wordBytes (n : Nat) (v : Word) : bytesVal (wordBytes n v) = v.toNat % 2 ^ (8 * n) := by
  induction n generalizing v with
  | zero => simp [wordBytes, bytesVal, Nat.mod_one]
  | succ n ih =>
    have e : 2 ^ (8 * (n + 1)) = 2 ^ 8 * 2 ^ (8 * n) := by
      rw [← Nat.pow_add]; congr 1; omega
    have h : ((v &&& 255#64).setWidth 8).toNat = v.toNat % 2 ^ 8 := by
      rw [BitVec.toNat_setWidth, BitVec.toNat_and, show (255#64).toNat = 2 ^ 8 - 1 from rfl, Nat.and_two_pow_sub_one_eq_mod]
      omega
    rw [wordBytes, bytesVal, ih, h, BitVec.toNat_ushiftRight, Nat.shiftRight_eq_div_pow, e, Nat.mod_mul]

theorem wordLoop_eq (bc n : Nat) (v : Word) (out : List Byte) (h : out.length ≤ bc) :
    wordLoop bc n v out = (out ++ wordBytes n v).take bc := by
  induction n generalizing v out with
  | zero => simp [wordLoop, wordBytes, List.take_of_length_le h]
  | succ n ih =>
    rw [wordLoop]
    by_cases hl : out.length = bc
    · rw [if_pos hl, ← hl, List.take_left']
      rfl
    · rw [if_neg hl, ih _ _ (by simp; omega), wordBytes]
      simp

theorem fold_eq (bc : Nat) (ws : List Word) (out : List Byte) (h : out.length ≤ bc) :
    ws.foldl (fun out w => wordLoop bc 8 w out) out = (out ++ ws.flatMap (wordBytes 8)).take bc := by
  induction ws generalizing out with
  | nil => simp [List.take_of_length_le h]
  | cons w ws ih =>
    rw [List.foldl_cons, wordLoop_eq _ _ _ _ h, ih _ (by rw [List.length_take]; omega), List.flatMap_cons]
    by_cases hb : (out ++ wordBytes 8 w).length ≤ bc
    · rw [List.take_of_length_le hb, List.append_assoc]
    · have h1 : ((out ++ wordBytes 8 w).take bc).length = bc := by rw [List.length_take]; omega
      rw [List.take_append_of_le_length (Nat.le_of_eq h1.symm), List.take_of_length_le (Nat.le_of_eq h1),
        ← List.append_assoc, List.take_append_of_le_length (l₁ := out ++ wordBytes 8 w) (by omega)]

theorem length_flatMap (ws : List Word) : (ws.flatMap (wordBytes 8)).length = 8 * ws.length := by
  induction ws with
  | nil => rfl
  | cons w ws ih => rw [List.flatMap_cons, List.length_append, ih, wordBytes_length, List.length_cons]; omega

theorem bytesVal_flatMap (ws : List Word) : bytesVal (ws.flatMap (wordBytes 8)) = wordsVal ws := by
  induction ws with
  | nil => rfl
  | cons w ws ih =>
    rw [List.flatMap_cons, bytesVal_append, ih, wordBytes_length, bytesVal_wordBytes, wordsVal_cons,
      Nat.mod_eq_of_lt w.isLt]

theorem toBytesLe_eq (ws : List Word) (width : Nat) :
    toBytesLe ws width = (ws.flatMap (wordBytes 8)).take ((width + 7) / 8) := by
  unfold toBytesLe
  rw [fold_eq _ _ _ (by simp), List.nil_append]
  rfl

theorem testBit_bytesVal_cons (b : Byte) (bs : List Byte) (i : Nat) :
    (bytesVal (b :: bs)).testBit i = if i < 8 then b.getLsbD i else (bytesVal bs).testBit (i - 8) := by
  rw [bytesVal, Nat.add_comm, Nat.testBit_two_pow_mul_add _ b.isLt]
  by_cases h : i < 8 <;> simp [h, BitVec.testBit_toNat]

theorem fromLoop_spec (ii : Nat) (bs : List Byte) (out : List Word) (h : ii + bs.length ≤ 8 * out.length) :
    ∃ r, fromLoop ii bs out = ok r ∧ r.length = out.length ∧
      ∀ i, bit r i = (bit out i || (decide (8 * ii ≤ i) && (bytesVal bs).testBit (i - 8 * ii))) := by
  induction bs generalizing ii out with
  | nil => exact ⟨out, rfl, rfl, fun i => by simp [bytesVal]⟩
  | cons b bs ih =>
    rw [List.length_cons] at h
    have hi : ii / 8 < out.length := by omega
    obtain ⟨r, h1, h2, h3⟩ := ih (ii + 1)
      (out.set (ii / 8) (out[ii / 8] ||| ((b.setWidth 64 : Word) <<< (8 * ((ii % U32) % 8))))) (by simp; omega)
    refine ⟨r, ?_, by simpa using h2, fun i => ?_⟩
    · rw [fromLoop]
      simp only [idx_ok hi, setIdx_ok hi, ok_bind]
      exact h1
    · rw [h3, bit_set _ _ _ _ hi, testBit_bytesVal_cons]
      have hm : (ii % U32) % 8 = ii % 8 := by
        show (ii % 4294967296) % 8 = ii % 8
        omega
      rw [hm, BitVec.getLsbD_or, BitVec.getLsbD_shiftLeft, BitVec.getLsbD_setWidth]
      by_cases hw : i / 64 = ii / 8
      · have hb : bit out i = (out[ii / 8]).getLsbD (i % 64) := by
          rw [bit_eq_getD, hw, List.getD_eq_getElem?_getD, List.getElem?_eq_getElem hi, Option.getD_some]
        have c0 : i % 64 < 64 := by omega
        rw [if_pos hw, ← hb, decide_eq_true c0, Bool.true_and]
        by_cases h4 : 8 * ii ≤ i
        · have c1 : ¬ i % 64 < 8 * (ii % 8) := by omega
          have c2 : i % 64 - 8 * (ii % 8) = i - 8 * ii := by omega
          have c3 : i - 8 * ii < 64 := by omega
          rw [decide_eq_true h4, decide_eq_false c1, c2, decide_eq_true c3]
          by_cases h5 : i - 8 * ii < 8
          · have c4 : ¬ 8 * (ii + 1) ≤ i := by omega
            rw [if_pos h5, decide_eq_false c4]; simp
          · have c4 : 8 * (ii + 1) ≤ i := by omega
            have c5 : i - 8 * (ii + 1) = i - 8 * ii - 8 := by omega
            rw [if_neg h5, decide_eq_true c4, c5, BitVec.getLsbD_of_ge b _ (by omega)]; simp
        · have c1 : i % 64 < 8 * (ii % 8) := by omega
          have c4 : ¬ 8 * (ii + 1) ≤ i := by omega
          rw [decide_eq_false h4, decide_eq_true c1, decide_eq_false c4]; simp
      · rw [if_neg hw]
        by_cases h4 : 8 * ii ≤ i
        · have h5 : ¬ i - 8 * ii < 8 := by omega
          have c4 : 8 * (ii + 1) ≤ i := by omega
          have c5 : i - 8 * (ii + 1) = i - 8 * ii - 8 := by omega
          rw [if_neg h5, decide_eq_true c4, decide_eq_true h4, c5]
        · have c4 : ¬ 8 * (ii + 1) ≤ i := by omega
          rw [decide_eq_false h4, decide_eq_false c4]
          simp

theorem fromLoop_panics (ii : Nat) (bs : List Byte) (out : List Word) (hi : ii ≤ 8 * out.length)
    (h : 8 * out.length < ii + bs.length) : fromLoop ii bs out = panic .bounds := by
  induction bs generalizing ii out with
  | nil => simp at h; omega
  | cons b bs ih =>
    rw [List.length_cons] at h
    rw [fromLoop]
    by_cases hii : ii / 8 < out.length
    · simp only [idx_ok hii, setIdx_ok hii, ok_bind]
      exact ih _ _ (by simp; omega) (by simp; omega)
    · have : idx out (ii / 8) = panic .bounds := by
        unfold idx
        rw [List.getElem?_eq_none (by omega)]
      simp only [this, panic_bind]

end Bytes

/-! ## Big integers -/

namespace Big

theorem wordsVal_u64Digits (n : Nat) : wordsVal (u64Digits n) = n := by
  induction n using u64Digits.induct with
  | case1 => rw [u64Digits]; simp
  | case2 n h ih =>
    rw [u64Digits, dif_neg h, wordsVal_cons, ih, BitVec.toNat_ofNat]
    show n % 2 ^ 64 + 2 ^ 64 * (n / 18446744073709551616) = n
    omega

theorem toBigUint_eq (ws : List Word) : toBigUint ws = wordsVal ws := by
  unfold toBigUint
  induction ws with
  | nil => rfl
  | cons w ws ih =>
    have hw := w.isLt
    have h1 : ((w &&& 0xffffffff#64).setWidth 32).toNat = w.toNat % 2 ^ 32 := by
      rw [BitVec.toNat_setWidth, BitVec.toNat_and, show (0xffffffff#64).toNat = 2 ^ 32 - 1 from rfl,
        Nat.and_two_pow_sub_one_eq_mod]
      omega
    have h2 : (((w >>> 32) &&& 0xffffffff#64).setWidth 32).toNat = w.toNat / 2 ^ 32 := by
      rw [BitVec.toNat_setWidth, BitVec.toNat_and, show (0xffffffff#64).toNat = 2 ^ 32 - 1 from rfl,
        Nat.and_two_pow_sub_one_eq_mod, BitVec.toNat_ushiftRight, Nat.shiftRight_eq_div_pow]
      omega
    rw [wordsToU32, fromSlice32, fromSlice32, ih, h1, h2, wordsVal_cons]
    show w.toNat % 2 ^ 32 + 4294967296 * (w.toNat / 2 ^ 32 + 4294967296 * wordsVal ws) = _
    omega

theorem wordsVal_take (ws : List Word) (n : Nat) : wordsVal (ws.take n) = wordsVal ws % 2 ^ (64 * n) := by
  apply wordsVal_eq_of_bit
  intro i
  rw [bit_take, Nat.testBit_mod_two_pow]; rfl

/-- `iter_to_word` stores the number modulo `2^width`, whatever the destination held. -/
theorem iterToWord_spec (m : Mode) {digits out : List Word} {width : Nat} (hw : 0 < width)
    (hl : out.length = (width + 63) / 64) :
    ∃ r, iterToWord m digits width out = ok r ∧ r.length = out.length ∧ wordsVal r = wordsVal digits % 2 ^ width := by
  unfold iterToWord
  rw [if_neg (by omega)]
  have hd : divCeil width BITS = (width + 63) / 64 := rfl
  dsimp only
  rw [debugAssert_decide_of (by omega), ok_bind, hd]
  by_cases hc : out.length ≤ digits.length
  · rw [Nat.min_eq_left hc, if_neg (by omega), if_pos (by omega), Arith.assign_of_le hc]
    obtain ⟨r, h1, h2, h3⟩ := Arith.maskMsb_spec (m := m) (dst := digits.take out.length) (width := width)
      (by rw [List.length_take]; omega) hw
    refine ⟨r, h1, by rw [h2, List.length_take]; omega, ?_⟩
    rw [h3, wordsVal_take, Arith.pow_mod_pow_mod _ (by omega)]
  · rw [Nat.min_eq_right (by omega), if_neg (by omega), if_neg (by omega)]
    refine ⟨_, rfl, ?_, ?_⟩
    · simp [Arith.clear_eq, Arith.assign_length]; omega
    · have e : (Arith.assign out digits).take digits.length = digits := by
        rw [Arith.assign_eq, List.take_of_length_le (by omega : digits.length ≤ out.length), List.take_left']
        rfl
      rw [e, Arith.clear_eq, wordsVal_append, wordsVal_replicate_zero, Nat.mul_zero, Nat.add_zero, Nat.mod_eq_of_lt]
      exact Nat.lt_of_lt_of_le (wordsVal_lt digits) (Nat.pow_le_pow_right (by decide) (by omega))

theorem u64Digits_last (n : Nat) (h : n ≠ 0) : ∃ (ds : List Word) (l : Word),
    u64Digits n = ds ++ [l] ∧ l.toNat ≠ 0 := by
  induction n using u64Digits.induct with
  | case1 => exact absurd rfl h
  | case2 n hn ih =>
    rw [u64Digits, dif_neg hn]
    by_cases h' : n / U64 = 0
    · refine ⟨[], BitVec.ofNat 64 n, ?_, ?_⟩
      · rw [h', u64Digits]; rfl
      · rw [BitVec.toNat_ofNat]
        have : n < U64 := by
          rcases Nat.div_eq_zero_iff.mp h' with h | h
          · exact absurd h (by decide)
          · exact h
        rw [Nat.mod_eq_of_lt this]
        exact hn
    · obtain ⟨ds, l, h1, h2⟩ := ih h'
      exact ⟨BitVec.ofNat 64 n :: ds, l, by rw [h1]; rfl, h2⟩

/-- `words * 64 - leading_zeros(msb)` is the bit length. -/
theorem bitLength_spec (n : Nat) (h : n ≠ 0) : ∃ (ds : List Word) (l : Word), u64Digits n = ds ++ [l] ∧
    leadingZeros l ≤ 63 ∧ 64 * (ds.length + 1) - leadingZeros l = Nat.log2 n + 1 := by
  obtain ⟨ds, l, h1, h2⟩ := u64Digits_last n h
  refine ⟨ds, l, h1, ?_⟩
  have hl0 : l ≠ 0#64 := fun e => h2 (by rw [e]; rfl)
  have hlt := l.isLt
  have hlog : Nat.log2 l.toNat < 64 := (Nat.log2_lt h2).mpr hlt
  have hz : leadingZeros l = 63 - Nat.log2 l.toNat := by rw [leadingZeros, if_neg hl0]
  have hv : n = wordsVal ds + 2 ^ (64 * ds.length) * l.toNat := by
    have := wordsVal_u64Digits n
    rw [h1, wordsVal_append, Arith.wordsVal_singleton] at this
    exact this.symm
  have hds := wordsVal_lt ds
  have b1 : 2 ^ Nat.log2 l.toNat ≤ l.toNat := Nat.log2_self_le h2
  have b2 : l.toNat < 2 ^ (Nat.log2 l.toNat + 1) := Nat.lt_log2_self
  have hn : Nat.log2 n = 64 * ds.length + Nat.log2 l.toNat := by
    rw [Nat.log2_eq_iff h, Nat.add_assoc, Nat.pow_add, Nat.pow_add 2 (64 * ds.length)]
    generalize 2 ^ (64 * ds.length) = P at *
    constructor
    · exact Nat.le_trans (Nat.mul_le_mul_left P b1) (by omega)
    · have : P * (l.toNat + 1) ≤ P * 2 ^ (Nat.log2 l.toNat + 1) := Nat.mul_le_mul_left P b2
      rw [Nat.mul_succ] at this
      omega
  exact ⟨by omega, by omega⟩

theorem log2_lt_of_lt {n b : Nat} (h : n ≠ 0) (hb : n < 2 ^ b) : Nat.log2 n < b := (Nat.log2_lt h).mpr hb

theorem countBigUintBits_spec (m : Mode) {n B : Nat} (hB : B + 64 ≤ 2 ^ 32) (hn : n < 2 ^ B) :
    countBigUintBits m n = ok (if n = 0 then 0 else Nat.log2 n + 1) := by
  unfold countBigUintBits
  by_cases h : n = 0
  · subst h
    rw [u64Digits]; rfl
  · obtain ⟨ds, l, h1, h2, h3⟩ := bitLength_spec n h
    have hlog := log2_lt_of_lt h hn
    have hlen : (ds ++ [l]).length % U32 = ds.length + 1 := by
      rw [List.length_append, List.length_singleton, Nat.mod_eq_of_lt]
      show _ < 4294967296
      omega
    simp only [h1, hlen, lastU_append, ok_bind]
    rw [if_neg (by omega), if_neg h, mulC_ok (by show _ < 4294967296; simp only [BITS]; omega), ok_bind,
      subC_ok (by simp only [BITS]; omega)]
    congr 1
    simp only [BITS]; omega

theorem countBigIntBits_spec (m : Mode) {z : Int} {B : Nat} (hB : B + 64 ≤ 2 ^ 32) (hn : z.natAbs < 2 ^ B) :
    countBigIntBits m z = ok (if z = 0 then 1 else Nat.log2 z.natAbs + 2) := by
  unfold countBigIntBits
  by_cases h : z = 0
  · subst h
    rw [show Int.natAbs 0 = 0 from rfl, u64Digits]; rfl
  · have h0 : z.natAbs ≠ 0 := by omega
    obtain ⟨ds, l, h1, h2, h3⟩ := bitLength_spec z.natAbs h0
    have hlog := log2_lt_of_lt h0 hn
    have hlen : (ds ++ [l]).length % U32 = ds.length + 1 := by
      rw [List.length_append, List.length_singleton, Nat.mod_eq_of_lt]
      show _ < 4294967296
      omega
    simp only [h1, hlen, lastU_append, ok_bind]
    rw [if_neg (by omega), if_neg h, mulC_ok (by show _ < 4294967296; simp only [BITS]; omega), ok_bind,
      subC_ok (by simp only [BITS]; omega), ok_bind, addC_ok (by show _ < 4294967296; simp only [BITS]; omega)]
    congr 1
    simp only [BITS]; omega

end Big
end Baa
