import Verif.Props.Closure
import Verif.Props.TextOps
import Verif.Spec.Expressions

/-!
# C77: values with stray bits above their width

Two ways lead to a value whose last word has bits set above the width: `shift_left` by a multiple of 64 (C12), and a reference into a
buffer of words that the caller filled. This file says which operations ignore such bits and which do not, and extends C27 to
computations that go through such values.
-/

namespace Baa
open Res BitVecValue

theorem Denotes.shows {v : BitVecValue} {w : Nat} {x : BitVec w} (h : Denotes v x) : Shows v x :=
  ⟨h.width_lt, h.width_eq, h.length_eq, fun i _ => h.bit i⟩

theorem Shows.val_mod {v : BitVecValue} {w : Nat} {x : BitVec w} (h : Shows v x) : wordsVal v.words % 2 ^ w = x.toNat := by
  apply Nat.eq_of_testBit_eq
  intro i
  rw [Nat.testBit_mod_two_pow]
  by_cases hi : i < w
  · rw [decide_eq_true hi, Bool.true_and]
    exact h.low i hi
  · rw [decide_eq_false hi, Bool.false_and]
    exact (Nat.testBit_lt_two_pow (Nat.lt_of_lt_of_le x.isLt (Nat.pow_le_pow_right (by decide) (by omega)))).symm

/-- Without stray bits `Shows` and `Denotes` agree. -/
theorem Shows.denotes {v : BitVecValue} {w : Nat} {x : BitVec w} (h : Shows v x) (hz : ∀ i, w ≤ i → bit v.words i = false) :
    Denotes v x :=
  Denotes.of_bit h.width_lt h.width_eq h.length_eq fun i => by
    by_cases hi : i < w
    · exact h.low i hi
    · rw [hz i (by omega), BitVec.getLsbD_of_ge _ _ (by omega)]

/-- At widths that fill the last word there is no room for stray bits. -/
theorem Shows.denotes_of_full {v : BitVecValue} {w : Nat} {x : BitVec w} (h : Shows v x) (hw : w % 64 = 0) : Denotes v x :=
  h.denotes fun i hi => bit_of_ge _ _ (by rw [h.length_eq]; omega)

/-! ## Operations that ignore stray bits -/

/-- **C77** add. -/
theorem C77_add_partial (m : Mode) {w : Nat} (hw : 0 < w) {a b : BitVecValue} {x y : BitVec w} (ha : Shows a x) (hb : Shows b y) :
    ∃ r, BitVecValue.add m a b = ok r ∧ Denotes r (x + y) := by
  obtain ⟨r, h1, h2, h3⟩ := Arith.add_spec (m := m) (d := valueVecZeros w) hw (length_valueVecZeros w) ha.length_eq
    hb.length_eq
  refine ⟨⟨w, r⟩, ?_, ha.width_lt, rfl, h2, ?_⟩
  · rw [BitVecValue.add, arithBin_eq ha.width_eq hb.width_eq ha.length_eq hb.length_eq, h1, ok_bind]
  · rw [h3, BitVec.toNat_add, ← ha.val_mod, ← hb.val_mod, ← Nat.add_mod]

/-- Subtraction modulo a power of two does not see multiples of it. -/
theorem sub_mod_pow (A B : Nat) {w N : Nat} (hN : w ≤ N) (hB : B < 2 ^ N) :
    (A + (2 ^ N - B)) % 2 ^ w = (A % 2 ^ w + (2 ^ w - B % 2 ^ w)) % 2 ^ w := by
  obtain ⟨k, rfl⟩ := Nat.exists_eq_add_of_le hN
  rw [Nat.pow_add] at *
  have hd := Nat.div_add_mod B (2 ^ w)
  have hm : B % 2 ^ w < 2 ^ w := Nat.mod_lt _ (Nat.two_pow_pos w)
  have hq : B / 2 ^ w < 2 ^ k := Nat.div_lt_of_lt_mul hB
  generalize B / 2 ^ w = q at *
  generalize B % 2 ^ w = r at *
  obtain ⟨j, hj⟩ : ∃ j, 2 ^ k = q + 1 + j := ⟨2 ^ k - q - 1, by omega⟩
  rw [hj, Nat.mul_add, Nat.mul_add, Nat.mul_one]
  have e : A + (2 ^ w * q + 2 ^ w + 2 ^ w * j - B) = A + (2 ^ w - r) + 2 ^ w * j := by omega
  rw [e, Nat.add_mul_mod_self_left, Nat.mod_add_mod]

/-- **C77** sub. -/
theorem C77_sub_partial (m : Mode) {w : Nat} (hw : 0 < w) {a b : BitVecValue} {x y : BitVec w} (ha : Shows a x) (hb : Shows b y) :
    ∃ r, BitVecValue.sub m a b = ok r ∧ Denotes r (x - y) := by
  have hz : (valueVecZeros w).length = a.words.length := by rw [length_valueVecZeros, ha.length_eq]
  have hab : a.words.length = b.words.length := by rw [ha.length_eq, hb.length_eq]
  have hl := Arith.subLoop_length (c := 1) (by omega) hz hab
  obtain ⟨r, h1, h2, h3⟩ := Arith.maskMsb_spec (m := m) (dst := Arith.subLoop 1 (valueVecZeros w) a.words b.words) (width := w)
    (by rw [hl, ha.length_eq]) hw
  refine ⟨⟨w, r⟩, ?_, ha.width_lt, rfl, by rw [h2, hl, ha.length_eq], ?_⟩
  · rw [BitVecValue.sub, arithBin_eq ha.width_eq hb.width_eq ha.length_eq hb.length_eq, Arith.sub, h1, ok_bind]
  · have hN : w ≤ 64 * a.words.length := by rw [ha.length_eq]; omega
    have hB : wordsVal b.words < 2 ^ (64 * a.words.length) := by rw [hab]; exact wordsVal_lt _
    rw [h3, Arith.subLoop_val hz hab, Arith.pow_mod_pow_mod _ hN, sub_mod_pow _ _ hN hB, ha.val_mod, hb.val_mod, BitVec.toNat_sub,
      Nat.add_comm]

/-- **C77** negate. -/
theorem C77_negate_partial (m : Mode) {w : Nat} (hw : 0 < w) {a : BitVecValue} {x : BitVec w} (ha : Shows a x) :
    ∃ r, BitVecValue.negate m a = ok r ∧ Denotes r (-x) := by
  obtain ⟨r, h1, h2, h3⟩ := Arith.negateInPlace_spec (m := m) hw ha.length_eq
  refine ⟨⟨w, r⟩, ?_, ha.width_lt, rfl, h2, ?_⟩
  · rw [negate_eq ha.width_eq hw ha.length_eq, h1, ok_bind]
  · have := sub_mod_pow 0 (wordsVal a.words) (w := w) (N := 64 * a.words.length) (by rw [ha.length_eq]; omega) (wordsVal_lt _)
    rw [Nat.zero_add, Nat.zero_mod, Nat.zero_add, ha.val_mod] at this
    rw [h3, this, BitVec.toNat_neg]

/-- **C77** mul, up to 64 bits. -/
theorem C77_mul_partial (m : Mode) {w : Nat} (hw : 0 < w) (hw64 : w ≤ 64) {a b : BitVecValue} {x y : BitVec w} (ha : Shows a x)
    (hb : Shows b y) : ∃ r, BitVecValue.mul m a b = ok r ∧ Denotes r (x * y) := by
  have hal : a.words.length = 1 := by rw [ha.length_eq]; omega
  have hbl : b.words.length = 1 := by rw [hb.length_eq]; omega
  obtain ⟨a0, ha0⟩ := List.length_eq_one_iff.mp hal
  obtain ⟨b0, hb0⟩ := List.length_eq_one_iff.mp hbl
  have hx := ha.val_mod
  have hy := hb.val_mod
  rw [ha0, Arith.wordsVal_singleton] at hx
  rw [hb0, Arith.wordsVal_singleton] at hy
  obtain ⟨mk, h1, h2, _⟩ := Arith.mask_spec hw hw64
  have hz : valueVecZeros w = [0#64] := by
    have : divCeil w 64 = 1 := by rw [divCeil_64]; omega
    simp [valueVecZeros, this]
  refine ⟨⟨w, [(a0 * b0) &&& mk]⟩, ?_, ha.width_lt, rfl, by simp; omega, ?_⟩
  · rw [BitVecValue.mul, arithBin_eq ha.width_eq hb.width_eq ha.length_eq hb.length_eq, ha0, hb0, hz]
    simp [Arith.mul, hw64, idx, h1, setIdx]
  · rw [Arith.wordsVal_singleton, Arith.and_mask_toNat _ _ _ h2, BitVec.toNat_mul, BitVec.toNat_mul, ← hx, ← hy,
      Arith.pow_mod_pow_mod _ hw64, ← Nat.mul_mod]

/-- **C77** not. -/
theorem C77_not_partial (m : Mode) {w : Nat} (hw : 0 < w) {a : BitVecValue} {x : BitVec w} (ha : Shows a x) :
    ∃ r, BitVecValue.not m a = ok r ∧ Denotes r (~~~x) := by
  have hz : (valueVecZeros w).length = a.words.length := by rw [length_valueVecZeros, ha.length_eq]
  have hu : Arith.bitwiseUnOp (fun e => ~~~e) (valueVecZeros w) a.words = a.words.map fun e => ~~~e :=
    Arith.bitwiseUnOp_eq _ hz
  obtain ⟨r, h1, h2, h3⟩ := Arith.maskMsb_bit (m := m) (dst := a.words.map fun e => ~~~e) (width := w)
    (by simp [ha.length_eq]) hw
  refine ⟨⟨w, r⟩, ?_, Denotes.of_bit ha.width_lt rfl ?_ fun i => ?_⟩
  · rw [not_eq ha.width_eq hw ha.length_eq, Arith.not, hu, h1, ok_bind]
  · simp only [h2, List.length_map, ha.length_eq]
  · rw [h3, Arith.bit_map_not, BitVec.getLsbD_not, ha.length_eq]
    by_cases h : i < w
    · have : i < 64 * ((w + 63) / 64) := by omega
      rw [ha.low i h, decide_eq_true h, decide_eq_true this]; simp
    · rw [decide_eq_false h]; simp

/-- **C77** slice. -/
theorem C77_slice_partial (m : Mode) {w : Nat} {a : BitVecValue} {x : BitVec w} (ha : Shows a x) {msb lsb : Nat}
    (h1 : msb < w) (h2 : lsb ≤ msb) :
    ∃ r, BitVecValue.slice m a msb lsb = ok r ∧ Denotes r (x.extractLsb' lsb (msb - lsb + 1)) := by
  have hw : w < 4294967296 := ha.width_lt
  obtain ⟨r, hr1, hr2, hr3⟩ := Arith.slice_spec (m := m) (d := valueVecZeros (msb - lsb + 1)) (src := a.words) h2
    (by rw [ha.length_eq]; omega) (by show _ < 4294967296; omega) (length_valueVecZeros _)
  refine ⟨⟨_, r⟩, ?_, Denotes.of_bit (by show _ < 4294967296; omega) rfl (by rw [← length_valueVecZeros]; exact hr2)
    fun i => ?_⟩
  · rw [slice_eq_of (by rw [ha.width_eq]; omega) h2 (by show _ < 4294967296; omega), hr1, ok_bind]
  · rw [hr3, BitVec.getLsbD_extractLsb', Nat.add_comm i]
    by_cases hi : i < msb - lsb + 1
    · rw [ha.low _ (by omega)]
    · rw [decide_eq_false hi]; rfl

/-- **C77** shift_right: the shifted value may have stray bits, the amount may not. -/
theorem C77_shift_right_partial (m : Mode) {w : Nat} (hw : 0 < w) {a b : BitVecValue} {x y : BitVec w} (ha : Shows a x)
    (hb : Denotes b y) : ∃ r, BitVecValue.shiftRight m a b = ok r ∧ Denotes r (x >>> y.toNat) := by
  have hbne : b.words ≠ [] := fun h => by
    have := hb.len_pos hw; rw [h] at this; simp at this
  obtain ⟨r, h1, h2, h3⟩ := Arith.shiftRight_gen (m := m) (d := valueVecZeros w) hw ha.width_lt
    (length_valueVecZeros w) ha.length_eq hbne
  rw [length_valueVecZeros] at h2
  refine ⟨⟨w, r⟩, ?_, Denotes.of_bit ha.width_lt rfl h2 fun i => ?_⟩
  · rw [BitVecValue.shiftRight, arithBin_eq ha.width_eq hb.width_eq ha.length_eq hb.length_eq, h1, ok_bind, ok_bind]
  · rw [h3, hb.val_eq, BitVec.getLsbD_ushiftRight, Nat.add_comm]
    by_cases hi : y.toNat + i < w
    · rw [ha.low _ hi, decide_eq_true hi, Bool.true_and]
    · rw [decide_eq_false hi, BitVec.getLsbD_of_ge _ _ (by omega)]; rfl

/-- **C77** arithmetic_shift_right. -/
theorem C77_arithmetic_shift_right_partial (m : Mode) {w : Nat} (hw : 0 < w) {a b : BitVecValue} {x y : BitVec w}
    (ha : Shows a x) (hb : Denotes b y) :
    ∃ r, BitVecValue.arithmeticShiftRight m a b = ok r ∧ Denotes r (x.sshiftRight y.toNat) := by
  have hbne : b.words ≠ [] := fun h => by
    have := hb.len_pos hw; rw [h] at this; simp at this
  obtain ⟨r, h1, h2, h3⟩ := Arith.arithmeticShiftRight_spec (m := m) (d := valueVecZeros w) hw ha.width_lt
    (length_valueVecZeros w) ha.length_eq hbne
  rw [length_valueVecZeros] at h2
  refine ⟨⟨w, r⟩, ?_, Denotes.of_bit ha.width_lt rfl h2 fun i => ?_⟩
  · rw [BitVecValue.arithmeticShiftRight, arithBin_eq ha.width_eq hb.width_eq ha.length_eq hb.length_eq, h1, ok_bind]
  · rw [h3, hb.val_eq, BitVec.getLsbD_sshiftRight, Nat.add_comm i, BitVec.msb_eq_getLsbD_last, ha.low (w - 1) (by omega)]
    by_cases h : i < w
    · rw [decide_eq_true h, decide_eq_false (show ¬ w ≤ i by omega)]
      by_cases h' : y.toNat + i < w
      · rw [if_pos h', if_pos h', ha.low _ h']; rfl
      · rw [if_neg h', if_neg h']; rfl
    · rw [decide_eq_false h, decide_eq_true (show w ≤ i by omega)]; rfl

/-- **C77** is_bit_set. -/
theorem C77_is_bit_set_partial {w : Nat} {a : BitVecValue} {x : BitVec w} (ha : Shows a x) {pos : Nat} (h : pos < w) :
    BitVecValue.isBitSet a pos = ok (x.getLsbD pos) := by
  unfold BitVecValue.isBitSet
  rw [Arith.isBitSet_spec (by rw [ha.length_eq]; omega), ha.low _ h]

/-- **C77** is_negative. -/
theorem C77_is_negative_partial (m : Mode) {w : Nat} (hw : 0 < w) {a : BitVecValue} {x : BitVec w} (ha : Shows a x) :
    BitVecValue.isNegative m a = ok x.msb := by
  unfold BitVecValue.isNegative
  rw [ha.width_eq, Arith.isNeg_spec hw ha.length_eq, ha.low _ (by omega), BitVec.msb_eq_getLsbD_last]

/-- **C77** to_bit_str. -/
theorem C77_to_bit_str_partial {w : Nat} (hw : 0 < w) {a : BitVecValue} {x : BitVec w} (ha : Shows a x) :
    BitVecValue.toBitStr a = ok (text x) := toBitStr_of_bits hw ha.width_eq ha.length_eq ha.low

/-! ## Operations that pass stray bits on -/

/-- **C77** shift_left: the result shows the right bits; it has no stray bits if the amount is not a multiple of 64, or at least the
width, or if the width is a multiple of 64. -/
theorem C77_shift_left_partial (m : Mode) {w : Nat} (hw : 0 < w) {a b : BitVecValue} {x y : BitVec w} (ha : Shows a x) (hb : Denotes b y) :
    ∃ r, BitVecValue.shiftLeft m a b = ok r ∧ Shows r (x <<< y.toNat) ∧
      (y.toNat % 64 ≠ 0 ∨ w ≤ y.toNat ∨ w % 64 = 0 → Denotes r (x <<< y.toNat)) := by
  have hbne : b.words ≠ [] := fun h => by
    have := hb.len_pos hw; rw [h] at this; simp at this
  obtain ⟨r, h1, h2, h3⟩ := Arith.shiftLeft_spec (m := m) (d := valueVecZeros w) hw ha.width_lt (length_valueVecZeros w)
    ha.length_eq hbne
  rw [length_valueVecZeros] at h2 h3
  have hs : Shows (⟨w, r⟩ : BitVecValue) (x <<< y.toNat) := ⟨ha.width_lt, rfl, h2, fun i hi => by
    rw [h3, hb.val_eq, BitVec.getLsbD_shiftLeft, decide_eq_true hi]
    have h4 : i < (if y.toNat % 64 = 0 then 64 * ((w + 63) / 64) else w) := by split <;> omega
    rw [decide_eq_true h4]
    by_cases h5 : y.toNat ≤ i
    · rw [decide_eq_true h5, decide_eq_true (show y.toNat < w by omega), decide_eq_false (show ¬ i < y.toNat by omega),
        ha.low _ (by omega)]; simp
    · rw [decide_eq_false h5, decide_eq_true (show i < y.toNat by omega)]; simp⟩
  refine ⟨⟨w, r⟩, ?_, hs, fun h => hs.denotes fun i hi => ?_⟩
  · rw [BitVecValue.shiftLeft, arithBin_eq ha.width_eq hb.width_eq ha.length_eq hb.length_eq, h1, ok_bind]
  · show bit r i = false
    rw [h3, hb.val_eq]
    rcases h with h | h | h
    · rw [if_neg h, decide_eq_false (show ¬ i < w by omega)]; simp
    · rw [decide_eq_false (show ¬ y.toNat < w by omega)]; simp
    · by_cases h5 : y.toNat % 64 = 0
      · rw [if_pos h5, decide_eq_false (show ¬ i < 64 * ((w + 63) / 64) by omega)]; simp
      · rw [if_neg h5, decide_eq_false (show ¬ i < w by omega)]; simp

/-- A bitwise operation on any words. -/
theorem bitwise_words {m : Mode} {w : Nat} {a b : BitVecValue} {x y z : BitVec w} (ha : Shows a x) (hb : Shows b y)
    {f : Word → Word → Word} {g : Bool → Bool → Bool}
    (hf : ∀ (u v : Word) (i : Nat), i < 64 → (f u v).getLsbD i = g (u.getLsbD i) (v.getLsbD i)) (hg : g false false = false)
    (hz : ∀ i, z.getLsbD i = g (x.getLsbD i) (y.getLsbD i)) :
    ∃ r, bitArithBin m (Arith.bitwiseBinOp f) a b = ok r ∧ Shows r z ∧
      ∀ i, bit r.words i = g (bit a.words i) (bit b.words i) := by
  have hl : a.words.length = b.words.length := by rw [ha.length_eq, hb.length_eq]
  have hzl : (valueVecZeros w).length = a.words.length := by rw [length_valueVecZeros, ha.length_eq]
  have hbit : ∀ i, bit (Arith.bitwiseBinOp f (valueVecZeros w) a.words b.words) i = g (bit a.words i) (bit b.words i) :=
    fun i => by
      rw [Arith.bitwiseBinOp_eq _ hzl hl]
      exact Arith.bit_zipWith _ g hf hg hl i
  refine ⟨_, bitArithBin_eq ha.width_eq hb.width_eq ha.length_eq hb.length_eq, ⟨ha.width_lt, rfl, ?_, fun i hi => ?_⟩, hbit⟩
  · rw [Arith.bitwiseBinOp_eq _ hzl hl]; simp [ha.length_eq, hb.length_eq]
  · rw [hbit, ha.low i hi, hb.low i hi, hz]

/-- **C77** and: the result has no stray bits if one of the operands has none. -/
theorem C77_and_partial (m : Mode) {w : Nat} {a b : BitVecValue} {x y : BitVec w} (ha : Shows a x) (hb : Shows b y) :
    ∃ r, BitVecValue.and m a b = ok r ∧ Shows r (x &&& y) ∧ (Denotes a x ∨ Denotes b y → Denotes r (x &&& y)) := by
  obtain ⟨r, h1, h2, h3⟩ := bitwise_words (m := m) (z := x &&& y) (g := Bool.and) ha hb (f := (· &&& ·))
    (fun u v i _ => by simp) rfl (fun i => BitVec.getLsbD_and ..)
  refine ⟨r, h1, h2, fun h => h2.denotes fun i hi => ?_⟩
  rw [h3]
  rcases h with h | h
  · rw [h.bit, BitVec.getLsbD_of_ge _ _ hi]; rfl
  · rw [h.bit, BitVec.getLsbD_of_ge _ _ hi]; exact Bool.and_false _

/-- **C77** or. -/
theorem C77_or_partial (m : Mode) {w : Nat} {a b : BitVecValue} {x y : BitVec w} (ha : Shows a x) (hb : Shows b y) :
    ∃ r, BitVecValue.or m a b = ok r ∧ Shows r (x ||| y) := by
  obtain ⟨r, h1, h2, _⟩ := bitwise_words (m := m) (z := x ||| y) (g := Bool.or) ha hb (f := (· ||| ·))
    (fun u v i _ => by simp) rfl (fun i => BitVec.getLsbD_or ..)
  exact ⟨r, h1, h2⟩

/-- **C77** xor. -/
theorem C77_xor_partial (m : Mode) {w : Nat} {a b : BitVecValue} {x y : BitVec w} (ha : Shows a x) (hb : Shows b y) :
    ∃ r, BitVecValue.xor m a b = ok r ∧ Shows r (x ^^^ y) := by
  obtain ⟨r, h1, h2, _⟩ := bitwise_words (m := m) (z := x ^^^ y) (g := Bool.xor) ha hb (f := (· ^^^ ·))
    (fun u v i _ => by simp) rfl (fun i => BitVec.getLsbD_xor ..)
  exact ⟨r, h1, h2⟩

/-! ## Operations that look at stray bits -/

/-- **C77**, exact behaviour of the comparisons: they compare all bits of the words, those above the width included; the signed ones
look at the sign bits first. -/
theorem C77_compare_raw (m : Mode) {w : Nat} {a b : BitVecValue} {x y : BitVec w} (ha : Shows a x) (hb : Shows b y) :
    BitVecValue.isEqual m a b = ok (decide (wordsVal a.words = wordsVal b.words)) ∧
    BitVecValue.isGreater m a b = ok (decide (wordsVal a.words > wordsVal b.words)) ∧
    (0 < w → BitVecValue.isGreaterSigned m a b =
      ok (if x.msb = y.msb then decide (wordsVal a.words > wordsVal b.words) else y.msb)) := by
  have hl : a.words.length = b.words.length := by rw [ha.length_eq, hb.length_eq]
  have hs : assertSame m a b = ok () := assertSame_ok (by rw [ha.width_eq, hb.width_eq]) hl
  have key : Arith.cmpGreater a.words b.words = decide (wordsVal a.words > wordsVal b.words) := Arith.cmpGreater_spec hl
  refine ⟨?_, ?_, fun hw => ?_⟩
  · unfold BitVecValue.isEqual
    rw [hs, ok_bind, Arith.cmpEqual_spec hl]
  · unfold BitVecValue.isGreater
    rw [hs, ok_bind]
    by_cases h : a.words.length = 1
    · rw [if_pos h, sliceR_full h, ok_bind, sliceR_full (by omega), ok_bind, key]
    · rw [if_neg h, key]
  · unfold BitVecValue.isGreaterSigned
    rw [hs, ok_bind]
    have key2 : Arith.cmpGreaterSigned m a.words b.words w =
        ok (if x.msb = y.msb then decide (wordsVal a.words > wordsVal b.words) else y.msb) := by
      unfold Arith.cmpGreaterSigned
      rw [Arith.isNeg_spec hw ha.length_eq, ok_bind, Arith.isNeg_spec hw hb.length_eq, ok_bind, ha.low _ (by omega),
        hb.low _ (by omega), ← BitVec.msb_eq_getLsbD_last, ← BitVec.msb_eq_getLsbD_last]
      cases x.msb <;> cases y.msb <;> simp [key]
    rw [ha.width_eq]
    by_cases h : a.words.length = 1
    · rw [if_pos h, sliceR_full h, ok_bind, sliceR_full (by omega), ok_bind, key2]
    · rw [if_neg h, key2]

/-- **C77, full statement** (false of the code): no operation looks at bits above the width. -/
def C77_statement : Prop :=
  ∀ (m : Mode) {w : Nat}, 0 < w → ∀ {a b : BitVecValue} {x y : BitVec w}, Shows a x → Shows b y →
    (∃ r, BitVecValue.add m a b = ok r ∧ Denotes r (x + y)) ∧ (∃ r, BitVecValue.sub m a b = ok r ∧ Denotes r (x - y)) ∧
    (∃ r, BitVecValue.not m a = ok r ∧ Denotes r (~~~x)) ∧ (∃ r, BitVecValue.or m a b = ok r ∧ Denotes r (x ||| y)) ∧
    (∃ r, BitVecValue.shiftRight m a b = ok r ∧ Denotes r (x >>> y.toNat)) ∧
    (∃ r, BitVecValue.zeroExtend m a 1 = ok r ∧ Denotes r (x.setWidth (w + 1))) ∧
    (∃ r, BitVecValue.concat m a b = ok r ∧ Denotes r (x ++ y)) ∧
    BitVecValue.isEqual m a b = ok (decide (x = y)) ∧ BitVecValue.isGreater m a b = ok (decide (x.toNat > y.toNat)) ∧
    BitVecValue.toBigUint a = x.toNat

/-- The 4-bit value 0 with a stray bit. -/
theorem stray_shows : Shows (⟨4, [16#64]⟩ : BitVecValue) (0#4) :=
  ⟨by decide, rfl, rfl, by decide⟩

/-- **C77 is false of the code**: a 4-bit zero with a stray bit is not equal to the 4-bit zero. -/
theorem C77_refuted : ¬ C77_statement := fun h => by
  have h1 := (h .debug (by decide) stray_shows (encode_denotes 0#4 (by decide)).shows).2.2.2.2.2.2.2.1
  revert h1
  decide +kernel

/-- Each of the operations that look at stray bits, with a stray bit: comparison, conversion, concatenation, extension, text. -/
example :
    BitVecValue.isGreater .debug ⟨4, [16#64]⟩ ⟨4, [15#64]⟩ = ok true ∧
    BitVecValue.toU64 ⟨4, [16#64]⟩ = some 16#64 ∧ BitVecValue.toBigUint ⟨4, [16#64]⟩ = 16 ∧
    BitVecValue.isZero ⟨4, [16#64]⟩ = false ∧
    BitVecValue.concat .debug ⟨4, [1#64]⟩ ⟨4, [32#64]⟩ = ok ⟨8, [48#64]⟩ ∧
    BitVecValue.zeroExtend .debug ⟨4, [16#64]⟩ 1 = ok ⟨5, [16#64]⟩ ∧
    BitVecValue.signExtend .debug ⟨4, [16#64]⟩ 1 = ok ⟨5, [16#64]⟩ ∧
    BitVecValue.toHexStr .debug ⟨3, [8#64]⟩ = ok [ch '8'] ∧
    BitVecValue.toBytesLe ⟨4, [16#64]⟩ = [16#8] ∧
    BitVecValue.shiftRight .debug ⟨4, [1#64]⟩ ⟨4, [16#64]⟩ = ok ⟨4, [0#64]⟩ := by decide +kernel

example : BitVecValue.add .debug ⟨4, [16#64]⟩ ⟨4, [0xffffffffffffffff#64]⟩ = ok ⟨4, [15#64]⟩ ∧
    BitVecValue.sub .debug ⟨4, [16#64]⟩ ⟨4, [1#64]⟩ = ok ⟨4, [15#64]⟩ ∧
    BitVecValue.arithmeticShiftRight .debug ⟨4, [0x58#64]⟩ ⟨4, [1#64]⟩ = ok ⟨4, [0xc#64]⟩ := by decide +kernel

/-! ## C27 for computations that go through values with stray bits -/

theorem Result.shows {clean : Bool} {r : BitVecValue} {w : Nat} {x : BitVec w} (h : Result clean r x) : Shows r x := by
  cases clean with
  | true => exact Denotes.shows h
  | false => exact h

theorem Denotes.result {clean : Bool} {r : BitVecValue} {w : Nat} {x : BitVec w} (h : Denotes r x) : Result clean r x := by
  cases clean with
  | true => exact h
  | false => exact h.shows

/-- **C27**, stronger (partial): a computation of any size may go through values with stray bits, as long as no operation that looks at
them uses one (`Safe`). The final value shows the mathematical result, and is its canonical representation if it was to be `clean`.
Missing: products wider than 64 bits, and comparing, extending, concatenating or shifting by a value with stray bits. -/
theorem C27_safe_partial (m : Mode) : (clean : Bool) → {w : Nat} → (e : Expr w) → e.Legal → e.Safe clean →
    ∃ r, e.eval m = ok r ∧ Result clean r e.denote
  | _, _, .leaf v, h, _ => ⟨v, rfl, h.1.denotes.result⟩
  | _, _, .add a b, h, s => by
    obtain ⟨x, hx, dx⟩ := C27_safe_partial m false a h.1 s.1
    obtain ⟨y, hy, dy⟩ := C27_safe_partial m false b h.2 s.2
    obtain ⟨r, hr, dr⟩ := C77_add_partial m h.1.pos dx dy
    exact ⟨r, by rw [Expr.eval, hx, ok_bind, hy, ok_bind, hr], dr.result⟩
  | _, _, .sub a b, h, s => by
    obtain ⟨x, hx, dx⟩ := C27_safe_partial m false a h.1 s.1
    obtain ⟨y, hy, dy⟩ := C27_safe_partial m false b h.2 s.2
    obtain ⟨r, hr, dr⟩ := C77_sub_partial m h.1.pos dx dy
    exact ⟨r, by rw [Expr.eval, hx, ok_bind, hy, ok_bind, hr], dr.result⟩
  | _, _, .mul a b, h, s => by
    obtain ⟨x, hx, dx⟩ := C27_safe_partial m false a h.1 s.1
    obtain ⟨y, hy, dy⟩ := C27_safe_partial m false b h.2 s.2.1
    obtain ⟨r, hr, dr⟩ := C77_mul_partial m h.1.pos s.2.2 dx dy
    exact ⟨r, by rw [Expr.eval, hx, ok_bind, hy, ok_bind, hr], dr.result⟩
  | clean, _, .and a b, h, s => by
    rcases s with s | s
    · obtain ⟨x, hx, dx⟩ := C27_safe_partial m clean a h.1 s.1
      obtain ⟨y, hy, dy⟩ := C27_safe_partial m false b h.2 s.2
      obtain ⟨r, hr, dr, cr⟩ := C77_and_partial m dx.shows dy
      refine ⟨r, by rw [Expr.eval, hx, ok_bind, hy, ok_bind, hr], ?_⟩
      cases clean with
      | true => exact cr (.inl dx)
      | false => exact dr
    · obtain ⟨x, hx, dx⟩ := C27_safe_partial m false a h.1 s.1
      obtain ⟨y, hy, dy⟩ := C27_safe_partial m clean b h.2 s.2
      obtain ⟨r, hr, dr, cr⟩ := C77_and_partial m dx dy.shows
      refine ⟨r, by rw [Expr.eval, hx, ok_bind, hy, ok_bind, hr], ?_⟩
      cases clean with
      | true => exact cr (.inr dy)
      | false => exact dr
  | true, _, .or a b, h, s => by
    obtain ⟨x, hx, dx⟩ := C27_safe_partial m true a h.1 s.1
    obtain ⟨y, hy, dy⟩ := C27_safe_partial m true b h.2 s.2
    obtain ⟨r, hr, dr⟩ := C10_or m dx dy
    exact ⟨r, by rw [Expr.eval, hx, ok_bind, hy, ok_bind, hr], dr.result⟩
  | false, _, .or a b, h, s => by
    obtain ⟨x, hx, dx⟩ := C27_safe_partial m false a h.1 s.1
    obtain ⟨y, hy, dy⟩ := C27_safe_partial m false b h.2 s.2
    obtain ⟨r, hr, dr⟩ := C77_or_partial m dx dy
    exact ⟨r, by rw [Expr.eval, hx, ok_bind, hy, ok_bind, hr], dr⟩
  | true, _, .xor a b, h, s => by
    obtain ⟨x, hx, dx⟩ := C27_safe_partial m true a h.1 s.1
    obtain ⟨y, hy, dy⟩ := C27_safe_partial m true b h.2 s.2
    obtain ⟨r, hr, dr⟩ := C10_xor m dx dy
    exact ⟨r, by rw [Expr.eval, hx, ok_bind, hy, ok_bind, hr], dr.result⟩
  | false, _, .xor a b, h, s => by
    obtain ⟨x, hx, dx⟩ := C27_safe_partial m false a h.1 s.1
    obtain ⟨y, hy, dy⟩ := C27_safe_partial m false b h.2 s.2
    obtain ⟨r, hr, dr⟩ := C77_xor_partial m dx dy
    exact ⟨r, by rw [Expr.eval, hx, ok_bind, hy, ok_bind, hr], dr⟩
  | true, _, .shl a b, h, s => by
    obtain ⟨y, hy, dy⟩ := C27_safe_partial m true b h.2 s.1
    rcases s.2 with ⟨sa, hc⟩ | ⟨sa, hc⟩
    · obtain ⟨x, hx, dx⟩ := C27_safe_partial m false a h.1 sa
      obtain ⟨r, hr, _, cr⟩ := C77_shift_left_partial m h.1.pos dx dy
      exact ⟨r, by rw [Expr.eval, hx, ok_bind, hy, ok_bind, hr], cr hc⟩
    · obtain ⟨x, hx, dx⟩ := C27_safe_partial m true a h.1 sa
      obtain ⟨r, hr, dr⟩ := C12_shift_left_partial m h.1.pos dx dy (hc.elim (fun h => .inr (.inl h))
        fun h => .inr (.inr (.inr (.inr h))))
      exact ⟨r, by rw [Expr.eval, hx, ok_bind, hy, ok_bind, hr], dr⟩
  | false, _, .shl a b, h, s => by
    obtain ⟨y, hy, dy⟩ := C27_safe_partial m true b h.2 s.1
    obtain ⟨x, hx, dx⟩ := C27_safe_partial m false a h.1 s.2
    obtain ⟨r, hr, dr, _⟩ := C77_shift_left_partial m h.1.pos dx dy
    exact ⟨r, by rw [Expr.eval, hx, ok_bind, hy, ok_bind, hr], dr⟩
  | _, _, .shr a b, h, s => by
    obtain ⟨x, hx, dx⟩ := C27_safe_partial m false a h.1 s.1
    obtain ⟨y, hy, dy⟩ := C27_safe_partial m true b h.2 s.2
    obtain ⟨r, hr, dr⟩ := C77_shift_right_partial m h.1.pos dx dy
    exact ⟨r, by rw [Expr.eval, hx, ok_bind, hy, ok_bind, hr], dr.result⟩
  | _, _, .ashr a b, h, s => by
    obtain ⟨x, hx, dx⟩ := C27_safe_partial m false a h.1 s.1
    obtain ⟨y, hy, dy⟩ := C27_safe_partial m true b h.2 s.2
    obtain ⟨r, hr, dr⟩ := C77_arithmetic_shift_right_partial m h.1.pos dx dy
    exact ⟨r, by rw [Expr.eval, hx, ok_bind, hy, ok_bind, hr], dr.result⟩
  | _, _, .neg a, h, s => by
    obtain ⟨x, hx, dx⟩ := C27_safe_partial m false a h s
    obtain ⟨r, hr, dr⟩ := C77_negate_partial m (Expr.Legal.pos (e := a) h) dx
    exact ⟨r, by rw [Expr.eval, hx, ok_bind, hr], dr.result⟩
  | _, _, .not a, h, s => by
    obtain ⟨x, hx, dx⟩ := C27_safe_partial m false a h s
    obtain ⟨r, hr, dr⟩ := C77_not_partial m (Expr.Legal.pos (e := a) h) dx
    exact ⟨r, by rw [Expr.eval, hx, ok_bind, hr], dr.result⟩
  | _, _, .slice a msb lsb, h, s => by
    obtain ⟨x, hx, dx⟩ := C27_safe_partial m false a h.1 s
    obtain ⟨r, hr, dr⟩ := C77_slice_partial m dx h.2.1 h.2.2
    exact ⟨r, by rw [Expr.eval, hx, ok_bind, hr], dr.result⟩
  | _, _, .concat a b, h, s => by
    obtain ⟨x, hx, dx⟩ := C27_safe_partial m true a h.1 s.1
    obtain ⟨y, hy, dy⟩ := C27_safe_partial m true b h.2.1 s.2
    obtain ⟨r, hr, dr⟩ := C21_concat_partial m dx dy h.2.2 (.inl ⟨h.1.pos, h.2.1.pos⟩)
    exact ⟨r, by rw [Expr.eval, hx, ok_bind, hy, ok_bind, hr], dr.result⟩
  | _, _, .zext a n, h, s => by
    obtain ⟨x, hx, dx⟩ := C27_safe_partial m true a h.1 s
    obtain ⟨r, hr, dr, _⟩ := C22_zero_extend_partial m dx n h.2 (.inl h.1.pos)
    exact ⟨r, by rw [Expr.eval, hx, ok_bind, hr], dr.result⟩
  | _, _, .sext a n, h, s => by
    obtain ⟨x, hx, dx⟩ := C27_safe_partial m true a h.1 s
    obtain ⟨r, hr, dr, _⟩ := C23_sign_extend m h.1.pos dx n h.2
    exact ⟨r, by rw [Expr.eval, hx, ok_bind, hr], dr.result⟩
  | _, _, .eq a b, h, s => by
    obtain ⟨x, hx, dx⟩ := C27_safe_partial m true a h.1 s.1
    obtain ⟨y, hy, dy⟩ := C27_safe_partial m true b h.2 s.2
    obtain ⟨r, hr, dr⟩ := C01_from_bool m _
    exact ⟨r, by rw [Expr.eval, hx, ok_bind, hy, ok_bind, C15_is_equal m dx dy, ok_bind, hr], dr.result⟩
  | _, _, .ugt a b, h, s => by
    obtain ⟨x, hx, dx⟩ := C27_safe_partial m true a h.1 s.1
    obtain ⟨y, hy, dy⟩ := C27_safe_partial m true b h.2 s.2
    obtain ⟨r, hr, dr⟩ := C01_from_bool m _
    exact ⟨r, by rw [Expr.eval, hx, ok_bind, hy, ok_bind, C16_is_greater m dx dy, ok_bind, hr], dr.result⟩
  | _, _, .sgt a b, h, s => by
    obtain ⟨x, hx, dx⟩ := C27_safe_partial m true a h.1 s.1
    obtain ⟨y, hy, dy⟩ := C27_safe_partial m true b h.2 s.2
    obtain ⟨r, hr, dr⟩ := C01_from_bool m _
    exact ⟨r, by rw [Expr.eval, hx, ok_bind, hy, ok_bind, C18_is_greater_signed m h.1.pos dx dy, ok_bind, hr], dr.result⟩
  | _, _, .sge a b, h, s => by
    obtain ⟨x, hx, dx⟩ := C27_safe_partial m true a h.1 s.1
    obtain ⟨y, hy, dy⟩ := C27_safe_partial m true b h.2 s.2
    obtain ⟨r, hr, dr⟩ := C01_from_bool m _
    exact ⟨r, by rw [Expr.eval, hx, ok_bind, hy, ok_bind, C18_is_greater_or_equal_signed m h.1.pos dx dy, ok_bind, hr],
      dr.result⟩
  | clean, _, .ite c a b, h, s => by
    obtain ⟨z, hz, dz⟩ := C27_safe_partial m true c h.1 s.1
    obtain ⟨x, hx, dx⟩ := C27_safe_partial m clean a h.2.1 s.2.1
    obtain ⟨y, hy, dy⟩ := C27_safe_partial m clean b h.2.2 s.2.2
    have hc : (1 = 1 ∧ c.denote.toNat = 1) ↔ c.denote = 1#1 := by
      rw [← BitVec.toNat_inj]
      simp
    by_cases h1 : c.denote = 1#1
    · refine ⟨x, ?_, by rw [Expr.denote, if_pos h1]; exact dx⟩
      rw [Expr.eval, hz, ok_bind, C25_is_tru dz, ok_bind, decide_eq_true (hc.mpr h1), if_pos rfl, hx]
    · refine ⟨y, ?_, by rw [Expr.denote, if_neg h1]; exact dy⟩
      rw [Expr.eval, hz, ok_bind, C25_is_tru dz, ok_bind, decide_eq_false (fun e => h1 (hc.mp e)),
        if_neg (by decide), hy]

/-- Everything `C27_closure_partial` covers is covered. -/
theorem Expr.Supported.safe : {w : Nat} → {e : Expr w} → e.Supported → ∀ clean, e.Safe clean
  | _, .leaf _, _ => fun _ => trivial
  | _, .add _ _, h => fun _ => ⟨h.1.safe _, h.2.safe _⟩
  | _, .sub _ _, h => fun _ => ⟨h.1.safe _, h.2.safe _⟩
  | _, .mul _ _, h => fun _ => ⟨h.1.safe _, h.2.1.safe _, h.2.2⟩
  | _, .and _ _, h => fun _ => .inl ⟨h.1.safe _, h.2.safe _⟩
  | _, .or _ _, h => fun _ => ⟨h.1.safe _, h.2.safe _⟩
  | _, .xor _ _, h => fun _ => ⟨h.1.safe _, h.2.safe _⟩
  | _, .shl _ _, h => fun clean => ⟨h.2.1.safe _, by
      cases clean with
      | false => exact h.1.safe _
      | true =>
        rcases h.2.2 with h' | h' | h' | h' | h'
        · exact .inl ⟨h.1.safe _, .inl h'⟩
        · exact .inr ⟨h.1.safe _, .inl h'⟩
        · exact .inl ⟨h.1.safe _, .inr (.inl h')⟩
        · exact .inl ⟨h.1.safe _, .inr (.inr h')⟩
        · exact .inr ⟨h.1.safe _, .inr h'⟩⟩
  | _, .shr _ _, h => fun _ => ⟨h.1.safe _, h.2.safe _⟩
  | _, .ashr _ _, h => fun _ => ⟨h.1.safe _, h.2.safe _⟩
  | _, .neg a, h => fun _ => Expr.Supported.safe (e := a) h _
  | _, .not a, h => fun _ => Expr.Supported.safe (e := a) h _
  | _, .slice a _ _, h => fun _ => Expr.Supported.safe (e := a) h _
  | _, .concat _ _, h => fun _ => ⟨h.1.safe _, h.2.safe _⟩
  | _, .zext a _, h => fun _ => Expr.Supported.safe (e := a) h _
  | _, .sext a _, h => fun _ => Expr.Supported.safe (e := a) h _
  | _, .eq _ _, h => fun _ => ⟨h.1.safe _, h.2.safe _⟩
  | _, .ugt _ _, h => fun _ => ⟨h.1.safe _, h.2.safe _⟩
  | _, .sgt _ _, h => fun _ => ⟨h.1.safe _, h.2.safe _⟩
  | _, .sge _ _, h => fun _ => ⟨h.1.safe _, h.2.safe _⟩
  | _, .ite _ _ _, h => fun _ => ⟨h.1.safe _, h.2.1.safe _, h.2.2.safe _⟩

/-- A rotation: `(a << 64) | (a >> 36)` plus one, on 100 bits. The left shift leaves stray bits, the addition removes them. -/
def C27_rotate : Expr 100 :=
  .add (.or (.shl (.leaf (encode (BitVec.ofNat 100 (2 ^ 99 + 5)))) (.leaf (encode 64#100)))
    (.shr (.leaf (encode (BitVec.ofNat 100 (2 ^ 99 + 5)))) (.leaf (encode 36#100)))) (.leaf (encode 1#100))

example : C27_rotate.Legal ∧ C27_rotate.Safe true ∧ ¬ C27_rotate.Supported ∧
    C27_rotate.eval .debug = ok (encode (BitVec.ofNat 100 (2 ^ 64 * 5 + 2 ^ 63 + 1))) := by
  have hl : ∀ x : BitVec 100, (Expr.leaf (encode x)).Legal := fun x =>
    ⟨(encode_denotes x (by decide)).canonical, Nat.succ_pos 99⟩
  refine ⟨⟨⟨⟨hl _, hl _⟩, ⟨hl _, hl _⟩⟩, hl _⟩, ⟨⟨⟨trivial, trivial⟩, ⟨trivial, trivial⟩⟩, trivial⟩, fun h => ?_, by decide +kernel⟩
  have h := h.1.1.2.2
  revert h
  decide +kernel

end Baa
