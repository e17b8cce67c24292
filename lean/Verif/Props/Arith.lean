import Verif.Proofs.Ops

/-!
# C06 – C14: arithmetic, bitwise operations and shifts

`Denotes v x` (Verif/Spec.lean): the stored value `v` has the width of `x`, exactly `⌈w/64⌉` words, and spells `x`.
The right-hand sides (`x + y`, `x - y`, `x <<< n`, …) are the bit-vector operations of Lean's core library.
`m` ranges over debug and release builds.
-/

namespace Baa
open Res BitVecValue

/-! ## C06 add -/

/-- **C06**: `add` never panics on equal widths `w ≥ 1` and returns the canonical `(x + y) mod 2^w`. -/
theorem C06_add (m : Mode) {w : Nat} (hw : 0 < w) {a b : BitVecValue} {x y : BitVec w} (ha : Denotes a x)
    (hb : Denotes b y) : ∃ r, BitVecValue.add m a b = ok r ∧ Denotes r (x + y) := by
  obtain ⟨r, h1, h2, h3⟩ := Arith.add_spec (m := m) (d := valueVecZeros w) hw (length_valueVecZeros w) ha.length_eq
    hb.length_eq
  refine ⟨⟨w, r⟩, ?_, ha.width_lt, rfl, h2, ?_⟩
  · rw [BitVecValue.add, arithBin_eq ha.width_eq hb.width_eq ha.length_eq hb.length_eq, h1, ok_bind]
  · rw [h3, ha.val_eq, hb.val_eq, BitVec.toNat_add]

/-- The same fact in terms of numbers. -/
theorem C06_add_toNat (m : Mode) {w : Nat} (hw : 0 < w) {a b : BitVecValue} {x y : BitVec w} (ha : Denotes a x)
    (hb : Denotes b y) : ∃ r, BitVecValue.add m a b = ok r ∧ r.width = w ∧
      wordsVal r.words = (wordsVal a.words + wordsVal b.words) % 2 ^ w := by
  obtain ⟨r, h1, h2⟩ := C06_add m hw ha hb
  exact ⟨r, h1, h2.width_eq, by rw [h2.val_eq, ha.val_eq, hb.val_eq, BitVec.toNat_add]⟩

/-- Non-vacuity: a 130-bit addition with carries through all three words. -/
example : ∃ a b : BitVecValue, Denotes a (BitVec.allOnes 130) ∧ Denotes b (1#130) ∧
    BitVecValue.add .debug a b = ok ⟨130, [0#64, 0#64, 0#64]⟩ :=
  ⟨encode (BitVec.allOnes 130), encode 1#130, encode_denotes _ (by decide), encode_denotes _ (by decide), by decide⟩

/-! ## C07 sub -/

/-- **C07**: `sub` never panics on equal widths `w ≥ 1` and returns the canonical `(x - y) mod 2^w`. -/
theorem C07_sub (m : Mode) {w : Nat} (hw : 0 < w) {a b : BitVecValue} {x y : BitVec w} (ha : Denotes a x)
    (hb : Denotes b y) : ∃ r, BitVecValue.sub m a b = ok r ∧ Denotes r (x - y) := by
  obtain ⟨r, h1, h2, h3⟩ := Arith.sub_spec (m := m) (d := valueVecZeros w) hw (length_valueVecZeros w) ha.length_eq
    hb.length_eq (by rw [hb.val_eq]; exact y.isLt)
  refine ⟨⟨w, r⟩, ?_, ha.width_lt, rfl, h2, ?_⟩
  · rw [BitVecValue.sub, arithBin_eq ha.width_eq hb.width_eq ha.length_eq hb.length_eq, h1, ok_bind]
  · rw [h3, ha.val_eq, hb.val_eq, BitVec.toNat_sub, Nat.add_comm]

/-- Non-vacuity: a borrow through two words. -/
example : ∃ a b : BitVecValue, Denotes a (0#100) ∧ Denotes b (1#100) ∧
    BitVecValue.sub .release a b = ok (encode (BitVec.allOnes 100)) :=
  ⟨encode 0#100, encode 1#100, encode_denotes _ (by decide), encode_denotes _ (by decide), by decide⟩

/-! ## C08 negate -/

/-- **C08**: `negate` returns the canonical two's complement negation. -/
theorem C08_negate (m : Mode) {w : Nat} (hw : 0 < w) {a : BitVecValue} {x : BitVec w} (ha : Denotes a x) :
    ∃ r, BitVecValue.negate m a = ok r ∧ Denotes r (-x) := by
  obtain ⟨r, h1, h2, h3⟩ := Arith.negateInPlace_spec' (m := m) hw ha.length_eq (by rw [ha.val_eq]; exact x.isLt)
  refine ⟨⟨w, r⟩, ?_, ha.width_lt, rfl, h2, ?_⟩
  · rw [negate_eq ha.width_eq hw ha.length_eq, h1, ok_bind]
  · rw [h3, ha.val_eq, BitVec.toNat_neg]

/-- **C08** (inverse): `a + (-a)` is zero. -/
theorem C08_negate_add (m : Mode) {w : Nat} (hw : 0 < w) {a : BitVecValue} {x : BitVec w} (ha : Denotes a x) :
    ∃ n r, BitVecValue.negate m a = ok n ∧ BitVecValue.add m a n = ok r ∧ Denotes r (0#w) := by
  obtain ⟨n, h1, h2⟩ := C08_negate m hw ha
  obtain ⟨r, h3, h4⟩ := C06_add m hw ha h2
  exact ⟨n, r, h1, h3, by simpa [BitVec.add_neg_eq_sub] using h4⟩

/-- **C08** (involution): negating twice gives back exactly the same value. -/
theorem C08_negate_negate (m : Mode) {w : Nat} (hw : 0 < w) {a : BitVecValue} {x : BitVec w} (ha : Denotes a x) :
    ∃ n, BitVecValue.negate m a = ok n ∧ BitVecValue.negate m n = ok a := by
  obtain ⟨n, h1, h2⟩ := C08_negate m hw ha
  obtain ⟨r, h3, h4⟩ := C08_negate m hw h2
  rw [BitVec.neg_neg] at h4
  exact ⟨n, h1, by rw [h3, h4.repr_unique ha]⟩

example : ∃ a : BitVecValue, Denotes a (5#70) ∧ BitVecValue.negate .debug a = ok (encode (-5#70)) :=
  ⟨encode 5#70, encode_denotes _ (by decide), by decide⟩

/-! ## C09 mul -/

/-- **C09, full statement** (false of the code, see `C09_refuted`). -/
def C09_statement : Prop :=
  ∀ (m : Mode) {w : Nat}, 0 < w → ∀ {a b : BitVecValue} {x y : BitVec w}, Denotes a x → Denotes b y →
    ∃ r, BitVecValue.mul m a b = ok r ∧ Denotes r (x * y)

/-- **C09, proved part**: widths up to 64. Missing: widths above 64, where the code is `todo!()`. -/
theorem C09_mul_partial (m : Mode) {w : Nat} (hw : 0 < w) (hw64 : w ≤ 64) {a b : BitVecValue} {x y : BitVec w}
    (ha : Denotes a x) (hb : Denotes b y) : ∃ r, BitVecValue.mul m a b = ok r ∧ Denotes r (x * y) := by
  have hal : a.words.length = 1 := by rw [ha.length_eq]; omega
  have hbl : b.words.length = 1 := by rw [hb.length_eq]; omega
  obtain ⟨a0, ha0⟩ := List.length_eq_one_iff.mp hal
  obtain ⟨b0, hb0⟩ := List.length_eq_one_iff.mp hbl
  have hx := ha.val_eq
  have hy := hb.val_eq
  rw [ha0, Arith.wordsVal_singleton] at hx
  rw [hb0, Arith.wordsVal_singleton] at hy
  obtain ⟨mk, h1, h2, _⟩ := Arith.mask_spec hw hw64
  have hz : valueVecZeros w = [0#64] := by
    have : divCeil w 64 = 1 := by rw [divCeil_64]; omega
    simp [valueVecZeros, this]
  refine ⟨⟨w, [(a0 * b0) &&& mk]⟩, ?_, ha.width_lt, rfl, by simp; omega, ?_⟩
  · rw [BitVecValue.mul, arithBin_eq ha.width_eq hb.width_eq ha.length_eq hb.length_eq, ha0, hb0, hz]
    simp [Arith.mul, hw64, idx, h1, setIdx]
  · rw [Arith.wordsVal_singleton, Arith.and_mask_toNat _ _ _ h2, BitVec.toNat_mul, BitVec.toNat_mul, hx, hy,
      Arith.pow_mod_pow_mod _ hw64]

/-- Every multiplication of more than 64 bits panics. -/
theorem C09_mul_wide_panics (m : Mode) {w : Nat} (hw64 : 64 < w) {a b : BitVecValue} {x y : BitVec w}
    (ha : Denotes a x) (hb : Denotes b y) : BitVecValue.mul m a b = panic .todo := by
  rw [BitVecValue.mul, arithBin_eq ha.width_eq hb.width_eq ha.length_eq hb.length_eq]
  have : ¬ w ≤ 64 := by omega
  simp [Arith.mul, this]

/-- **C09 is false of the code**: a 65-bit multiplication panics. -/
theorem C09_refuted : ¬ C09_statement := fun h => by
  obtain ⟨r, hr, _⟩ := h .debug (w := 65) (by decide) (encode_denotes 3#65 (by decide)) (encode_denotes 5#65 (by decide))
  rw [C09_mul_wide_panics .debug (by decide) (encode_denotes 3#65 (by decide)) (encode_denotes 5#65 (by decide))] at hr
  cases hr

example : ∃ a b : BitVecValue, Denotes a (200#8) ∧ Denotes b (3#8) ∧
    BitVecValue.mul .debug a b = ok (encode (88#8)) :=
  ⟨encode 200#8, encode 3#8, encode_denotes _ (by decide), encode_denotes _ (by decide), by decide⟩

/-! ## C10 and, or, xor (any width, including 0) -/

/-- **C10** `and`. -/
theorem C10_and (m : Mode) {w : Nat} {a b : BitVecValue} {x y : BitVec w} (ha : Denotes a x) (hb : Denotes b y) :
    ∃ r, BitVecValue.and m a b = ok r ∧ Denotes r (x &&& y) ∧
      ∀ i, bit r.words i = (bit a.words i && bit b.words i) := by
  have hl : a.words.length = b.words.length := by rw [ha.length_eq, hb.length_eq]
  have hz : (valueVecZeros w).length = a.words.length := by rw [length_valueVecZeros, ha.length_eq]
  have hbit : ∀ i, bit (Arith.and (valueVecZeros w) a.words b.words) i = (bit a.words i && bit b.words i) := fun i => by
    rw [Arith.and, Arith.bitwiseBinOp_eq _ hz hl]
    exact Arith.bit_zipWith _ (· && ·) (fun x y i _ => by simp) rfl hl i
  refine ⟨_, bitArithBin_eq ha.width_eq hb.width_eq ha.length_eq hb.length_eq, ?_, hbit⟩
  refine Denotes.of_bit ha.width_lt rfl ?_ fun i => ?_
  · simp only [Arith.and]; rw [Arith.bitwiseBinOp_eq _ hz hl]; simp [ha.length_eq, hb.length_eq]
  · rw [hbit, ha.bit, hb.bit, BitVec.getLsbD_and]

/-- **C10** `or`. -/
theorem C10_or (m : Mode) {w : Nat} {a b : BitVecValue} {x y : BitVec w} (ha : Denotes a x) (hb : Denotes b y) :
    ∃ r, BitVecValue.or m a b = ok r ∧ Denotes r (x ||| y) := by
  have hl : a.words.length = b.words.length := by rw [ha.length_eq, hb.length_eq]
  have hz : (valueVecZeros w).length = a.words.length := by rw [length_valueVecZeros, ha.length_eq]
  refine ⟨_, bitArithBin_eq ha.width_eq hb.width_eq ha.length_eq hb.length_eq, ?_⟩
  refine Denotes.of_bit ha.width_lt rfl ?_ fun i => ?_
  · simp only [Arith.or]; rw [Arith.bitwiseBinOp_eq _ hz hl]; simp [ha.length_eq, hb.length_eq]
  · simp only [Arith.or]
    rw [Arith.bitwiseBinOp_eq _ hz hl, Arith.bit_zipWith _ (· || ·) (fun x y i _ => by simp) rfl hl, ha.bit, hb.bit,
      BitVec.getLsbD_or]

/-- **C10** `xor`. -/
theorem C10_xor (m : Mode) {w : Nat} {a b : BitVecValue} {x y : BitVec w} (ha : Denotes a x) (hb : Denotes b y) :
    ∃ r, BitVecValue.xor m a b = ok r ∧ Denotes r (x ^^^ y) := by
  have hl : a.words.length = b.words.length := by rw [ha.length_eq, hb.length_eq]
  have hz : (valueVecZeros w).length = a.words.length := by rw [length_valueVecZeros, ha.length_eq]
  refine ⟨_, bitArithBin_eq ha.width_eq hb.width_eq ha.length_eq hb.length_eq, ?_⟩
  refine Denotes.of_bit ha.width_lt rfl ?_ fun i => ?_
  · simp only [Arith.xor]; rw [Arith.bitwiseBinOp_eq _ hz hl]; simp [ha.length_eq, hb.length_eq]
  · simp only [Arith.xor]
    rw [Arith.bitwiseBinOp_eq _ hz hl, Arith.bit_zipWith _ Bool.xor (fun x y i _ => by simp) rfl hl, ha.bit, hb.bit,
      BitVec.getLsbD_xor]

example : ∃ a b : BitVecValue, Denotes a (12#70) ∧ Denotes b (10#70) ∧
    BitVecValue.and .debug a b = ok (encode 8#70) ∧ BitVecValue.or .debug a b = ok (encode 14#70) ∧
    BitVecValue.xor .debug a b = ok (encode 6#70) :=
  ⟨encode 12#70, encode 10#70, encode_denotes _ (by decide), encode_denotes _ (by decide), by decide, by decide, by decide⟩

/-! ## C11 not -/

/-- **C11**: `not` complements exactly the `w` value bits. -/
theorem C11_not (m : Mode) {w : Nat} (hw : 0 < w) {a : BitVecValue} {x : BitVec w} (ha : Denotes a x) :
    ∃ r, BitVecValue.not m a = ok r ∧ Denotes r (~~~x) := by
  have hz : (valueVecZeros w).length = a.words.length := by rw [length_valueVecZeros, ha.length_eq]
  have hu : Arith.bitwiseUnOp (fun e => ~~~e) (valueVecZeros w) a.words = a.words.map fun e => ~~~e :=
    Arith.bitwiseUnOp_eq _ hz
  obtain ⟨r, h1, h2, h3⟩ := Arith.maskMsb_bit (m := m) (dst := a.words.map fun e => ~~~e) (width := w)
    (by simp [ha.length_eq]) hw
  refine ⟨⟨w, r⟩, ?_, Denotes.of_bit ha.width_lt rfl ?_ fun i => ?_⟩
  · rw [not_eq ha.width_eq hw ha.length_eq, Arith.not, hu, h1, ok_bind]
  · simp only [h2, List.length_map, ha.length_eq]
  · rw [h3, Arith.bit_map_not, ha.bit, BitVec.getLsbD_not, ha.length_eq]
    by_cases h : i < w
    · have : i < 64 * ((w + 63) / 64) := by omega
      rw [decide_eq_true h, decide_eq_true this]; simp
    · rw [decide_eq_false h]; simp

/-- **C11** (involution): `not(not(a)) = a`. -/
theorem C11_not_not (m : Mode) {w : Nat} (hw : 0 < w) {a : BitVecValue} {x : BitVec w} (ha : Denotes a x) :
    ∃ n, BitVecValue.not m a = ok n ∧ BitVecValue.not m n = ok a := by
  obtain ⟨n, h1, h2⟩ := C11_not m hw ha
  obtain ⟨r, h3, h4⟩ := C11_not m hw h2
  rw [BitVec.not_not] at h4
  exact ⟨n, h1, by rw [h3, h4.repr_unique ha]⟩

example : ∃ a : BitVecValue, Denotes a (1#66) ∧ BitVecValue.not .debug a = ok ⟨66, [0xfffffffffffffffe#64, 3#64]⟩ :=
  ⟨encode 1#66, encode_denotes _ (by decide), by decide⟩

/-! ## C12 shift_left -/

/-- **C12, full statement** (false of the code, see `C12_refuted`). -/
def C12_statement : Prop :=
  ∀ (m : Mode) {w : Nat}, 0 < w → ∀ {a b : BitVecValue} {x y : BitVec w}, Denotes a x → Denotes b y →
    ∃ r, BitVecValue.shiftLeft m a b = ok r ∧ Denotes r (x <<< y.toNat)

/-- Exact description of what `shift_left` computes: it never panics, and the low `w` bits are always right; the bits
from `w` upward (which have to be zero) are the overflowing bits of the operand when the shift amount is a multiple of
64, and zero otherwise. -/
theorem C12_shift_left_exact (m : Mode) {w : Nat} (hw : 0 < w) {a b : BitVecValue} {x y : BitVec w} (ha : Denotes a x)
    (hb : Denotes b y) :
    ∃ r, BitVecValue.shiftLeft m a b = ok r ∧ r.width = w ∧ r.words.length = (w + 63) / 64 ∧
      (∀ i, i < w → bit r.words i = (x <<< y.toNat).getLsbD i) ∧
      (∀ i, w ≤ i → bit r.words i = (decide (y.toNat % 64 = 0) && decide (y.toNat < w) && decide (y.toNat ≤ i) &&
        decide (i < 64 * ((w + 63) / 64)) && x.getLsbD (i - y.toNat))) := by
  have hbne : b.words ≠ [] := fun h => by
    have := hb.len_pos hw; rw [h] at this; simp at this
  obtain ⟨r, h1, h2, h3⟩ := Arith.shiftLeft_spec (m := m) (d := valueVecZeros w) hw ha.width_lt (length_valueVecZeros w)
    ha.length_eq hbne
  rw [length_valueVecZeros] at h2
  refine ⟨⟨w, r⟩, ?_, rfl, h2, fun i hi => ?_, fun i hi => ?_⟩
  · rw [BitVecValue.shiftLeft, arithBin_eq ha.width_eq hb.width_eq ha.length_eq hb.length_eq, h1, ok_bind]
  · rw [h3, hb.val_eq, ha.bit, length_valueVecZeros, BitVec.getLsbD_shiftLeft, decide_eq_true hi]
    have h4 : i < (if y.toNat % 64 = 0 then 64 * ((w + 63) / 64) else w) := by split <;> omega
    rw [decide_eq_true h4]
    by_cases h5 : y.toNat ≤ i
    · have h6 : y.toNat < w := by omega
      have h7 : ¬ i < y.toNat := by omega
      rw [decide_eq_true h5, decide_eq_true h6, decide_eq_false h7]; simp
    · have h7 : i < y.toNat := by omega
      rw [decide_eq_false h5, decide_eq_true h7]; simp
  · rw [h3, hb.val_eq, ha.bit, length_valueVecZeros]
    by_cases h5 : y.toNat % 64 = 0
    · rw [if_pos h5, decide_eq_true h5]
      cases decide (y.toNat < w) <;> cases decide (y.toNat ≤ i) <;> simp
    · have h6 : ¬ i < w := by omega
      rw [if_neg h5, decide_eq_false h6, decide_eq_false h5]; simp

/-- **C12, proved part**: the result is the canonical `(x * 2^y) mod 2^w` unless the shift amount is a *positive multiple
of 64* below the width, the width is not a multiple of 64, and a set bit is shifted past the width. Missing: exactly that
case, where the code does not mask the last word. -/
theorem C12_shift_left_partial (m : Mode) {w : Nat} (hw : 0 < w) {a b : BitVecValue} {x y : BitVec w} (ha : Denotes a x)
    (hb : Denotes b y)
    (hok : y.toNat % 64 ≠ 0 ∨ y.toNat = 0 ∨ w ≤ y.toNat ∨ w % 64 = 0 ∨ x.toNat * 2 ^ y.toNat < 2 ^ w) :
    ∃ r, BitVecValue.shiftLeft m a b = ok r ∧ Denotes r (x <<< y.toNat) := by
  obtain ⟨r, h1, h2, h3, h4, h5⟩ := C12_shift_left_exact m hw ha hb
  refine ⟨r, h1, Denotes.of_bit ha.width_lt h2 h3 fun i => ?_⟩
  by_cases hi : i < w
  · exact h4 i hi
  · rw [h5 i (by omega), BitVec.getLsbD_of_ge (x <<< y.toNat) i (by omega)]
    rcases hok with h | h | h | h | h
    · rw [decide_eq_false h]; simp
    · rw [h, Nat.sub_zero, BitVec.getLsbD_of_ge _ _ (by omega)]; simp
    · have : ¬ y.toNat < w := by omega
      rw [decide_eq_false this]; simp
    · have : ¬ i < 64 * ((w + 63) / 64) := by omega
      rw [decide_eq_false this]; simp
    · by_cases h6 : y.toNat ≤ i
      · have h7 : x.getLsbD (i - y.toNat) = false := by
          rw [← BitVec.testBit_toNat]
          apply Nat.testBit_lt_two_pow
          have e : (2:Nat) ^ i = 2 ^ (i - y.toNat) * 2 ^ y.toNat := by rw [← Nat.pow_add]; congr 1; omega
          have h8 : x.toNat * 2 ^ y.toNat < 2 ^ (i - y.toNat) * 2 ^ y.toNat := by
            rw [← e]; exact Nat.lt_of_lt_of_le h (Nat.pow_le_pow_right (by decide) (by omega))
          exact Nat.lt_of_mul_lt_mul_right h8
        rw [h7]; simp
      · rw [decide_eq_false h6]; simp

/-- **C12 is false of the code**: shifting the 100-bit value `2^36` left by 64 sets bit 100 of the result. -/
theorem C12_refuted : ¬ C12_statement := fun h => by
  obtain ⟨r, hr, hd⟩ := h .debug (w := 100) (by decide) (encode_denotes (BitVec.ofNat 100 (2 ^ 36)) (by decide))
    (encode_denotes 64#100 (by decide))
  have e : BitVecValue.shiftLeft .debug (encode (BitVec.ofNat 100 (2 ^ 36))) (encode 64#100) =
      ok ⟨100, [0#64, BitVec.ofNat 64 (2 ^ 36)]⟩ := by decide
  rw [e] at hr
  cases hr
  have := hd.val_eq
  revert this
  decide

example : ∃ a b : BitVecValue, Denotes a (3#100) ∧ Denotes b (65#100) ∧ (65#100).toNat % 64 ≠ 0 ∧
    BitVecValue.shiftLeft .debug a b = ok ⟨100, [0#64, 6#64]⟩ :=
  ⟨encode 3#100, encode 65#100, encode_denotes _ (by decide), encode_denotes _ (by decide), by decide, by decide⟩

/-! ## C13 shift_right -/

/-- **C13**: `shift_right` is the logical right shift by the full unsigned value of the second operand. -/
theorem C13_shift_right (m : Mode) {w : Nat} (hw : 0 < w) {a b : BitVecValue} {x y : BitVec w} (ha : Denotes a x)
    (hb : Denotes b y) : ∃ r, BitVecValue.shiftRight m a b = ok r ∧ Denotes r (x >>> y.toNat) := by
  have hbne : b.words ≠ [] := fun h => by
    have := hb.len_pos hw; rw [h] at this; simp at this
  obtain ⟨r, h1, h2, h3⟩ := Arith.shiftRight_spec (m := m) (d := valueVecZeros w) hw ha.width_lt
    (length_valueVecZeros w) ha.length_eq hbne (by rw [ha.val_eq]; exact x.isLt)
  rw [length_valueVecZeros] at h2
  refine ⟨⟨w, r⟩, ?_, Denotes.of_bit ha.width_lt rfl h2 fun i => ?_⟩
  · rw [BitVecValue.shiftRight, arithBin_eq ha.width_eq hb.width_eq ha.length_eq hb.length_eq, h1, ok_bind, ok_bind]
  · rw [h3, hb.val_eq, ha.bit, BitVec.getLsbD_ushiftRight, Nat.add_comm]

/-- The same fact in terms of numbers: `floor (x / 2^y)`, which is 0 when `y ≥ w`. -/
theorem C13_shift_right_toNat (m : Mode) {w : Nat} (hw : 0 < w) {a b : BitVecValue} {x y : BitVec w} (ha : Denotes a x)
    (hb : Denotes b y) : ∃ r, BitVecValue.shiftRight m a b = ok r ∧
      wordsVal r.words = x.toNat / 2 ^ y.toNat ∧ (w ≤ y.toNat → wordsVal r.words = 0) := by
  obtain ⟨r, h1, h2⟩ := C13_shift_right m hw ha hb
  have e : wordsVal r.words = x.toNat / 2 ^ y.toNat := by
    rw [h2.val_eq, BitVec.toNat_ushiftRight, Nat.shiftRight_eq_div_pow]
  refine ⟨r, h1, e, fun h => ?_⟩
  rw [e]
  exact Nat.div_eq_of_lt (Nat.lt_of_lt_of_le x.isLt (Nat.pow_le_pow_right (by decide) h))

example : ∃ a b : BitVecValue, Denotes a (BitVec.allOnes 130) ∧ Denotes b (70#130) ∧
    BitVecValue.shiftRight .debug a b = ok ⟨130, [0xfffffffffffffff#64, 0#64, 0#64]⟩ :=
  ⟨encode (BitVec.allOnes 130), encode 70#130, encode_denotes _ (by decide), encode_denotes _ (by decide), by decide⟩

/-! ## C14 arithmetic_shift_right -/

/-- **C14**: `arithmetic_shift_right` is the sign-replicating right shift by the full unsigned value of the second
operand. -/
theorem C14_arithmetic_shift_right (m : Mode) {w : Nat} (hw : 0 < w) {a b : BitVecValue} {x y : BitVec w}
    (ha : Denotes a x) (hb : Denotes b y) :
    ∃ r, BitVecValue.arithmeticShiftRight m a b = ok r ∧ Denotes r (x.sshiftRight y.toNat) := by
  have hbne : b.words ≠ [] := fun h => by
    have := hb.len_pos hw; rw [h] at this; simp at this
  obtain ⟨r, h1, h2, h3⟩ := Arith.arithmeticShiftRight_spec (m := m) (d := valueVecZeros w) hw ha.width_lt
    (length_valueVecZeros w) ha.length_eq hbne
  rw [length_valueVecZeros] at h2
  refine ⟨⟨w, r⟩, ?_, Denotes.of_bit ha.width_lt rfl h2 fun i => ?_⟩
  · rw [BitVecValue.arithmeticShiftRight, arithBin_eq ha.width_eq hb.width_eq ha.length_eq hb.length_eq, h1, ok_bind]
  · rw [h3, hb.val_eq, ha.bit, ha.bit, BitVec.getLsbD_sshiftRight, Nat.add_comm i, BitVec.msb_eq_getLsbD_last]
    by_cases h : i < w
    · have : ¬ w ≤ i := by omega
      rw [decide_eq_true h, decide_eq_false this]; rfl
    · have : w ≤ i := by omega
      rw [decide_eq_false h, decide_eq_true this]; rfl

/-- The same fact in terms of integers: the signed value of the result is `floor (signed x / 2^y)`. -/
theorem C14_arithmetic_shift_right_toInt (m : Mode) {w : Nat} (hw : 0 < w) {a b : BitVecValue} {x y : BitVec w}
    (ha : Denotes a x) (hb : Denotes b y) :
    ∃ r z, BitVecValue.arithmeticShiftRight m a b = ok r ∧ Denotes r (z : BitVec w) ∧
      z.toInt = x.toInt / 2 ^ y.toNat := by
  obtain ⟨r, h1, h2⟩ := C14_arithmetic_shift_right m hw ha hb
  refine ⟨r, _, h1, h2, ?_⟩
  rw [BitVec.toInt_sshiftRight, Int.shiftRight_eq_div_pow]
  norm_cast

example : ∃ a b : BitVecValue, Denotes a (BitVec.twoPow 130 129) ∧ Denotes b (70#130) ∧
    BitVecValue.arithmeticShiftRight .debug a b = ok ⟨130, [0x800000000000000#64 ||| 0xf000000000000000#64,
      BitVec.allOnes 64, 3#64]⟩ :=
  ⟨encode (BitVec.twoPow 130 129), encode 70#130, encode_denotes _ (by decide), encode_denotes _ (by decide), by decide⟩

/-! ## Width 0 -/

/-- Outside the quantifier of C06–C09 and C11–C14 (`w ≥ 1`): on values of width 0 these operations panic. -/
theorem width_zero_panics (m : Mode) :
    Panics (BitVecValue.add m ⟨0, []⟩ ⟨0, []⟩) ∧ Panics (BitVecValue.sub m ⟨0, []⟩ ⟨0, []⟩) ∧
    Panics (BitVecValue.mul m ⟨0, []⟩ ⟨0, []⟩) ∧ Panics (BitVecValue.not m ⟨0, []⟩) ∧
    Panics (BitVecValue.negate m ⟨0, []⟩) ∧ Panics (BitVecValue.shiftLeft m ⟨0, []⟩ ⟨0, []⟩) ∧
    Panics (BitVecValue.shiftRight m ⟨0, []⟩ ⟨0, []⟩) ∧
    Panics (BitVecValue.arithmeticShiftRight m ⟨0, []⟩ ⟨0, []⟩) := by
  cases m <;> exact ⟨⟨_, rfl⟩, ⟨_, rfl⟩, ⟨_, rfl⟩, ⟨_, rfl⟩, ⟨_, rfl⟩, ⟨_, rfl⟩, ⟨_, rfl⟩, ⟨_, rfl⟩⟩

end Baa
