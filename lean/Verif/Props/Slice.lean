import Verif.Proofs.Ops

/-!
# C19 – C24 and C61: slicing, concatenation, extension, single bits
-/

namespace Baa
open Res BitVecValue

/-! ## C19, C20 slice -/

theorem slice_eq_of {m : Mode} {a : BitVecValue} {msb lsb : Nat} (h1 : msb ≤ a.width) (h2 : lsb ≤ msb)
    (h3 : msb - lsb + 1 < U32) :
    BitVecValue.slice m a msb lsb =
      (Arith.slice m (valueVecZeros (msb - lsb + 1)) a.words msb lsb >>= fun out => ok ⟨msb - lsb + 1, out⟩) := by
  unfold BitVecValue.slice
  rw [debugAssert_decide_of h1, ok_bind, debugAssert_decide_of h2, ok_bind, subC_ok h2, ok_bind, addC_ok h3, ok_bind]
  dsimp only
  by_cases h : msb - lsb + 1 ≤ BITS
  · rw [if_pos h, modifyRange_full (by rw [length_zeros]; simp only [BITS] at h; omega)]
  · rw [if_neg h]

/-- **C19**: for `lsb ≤ msb < w`, `slice(msb, lsb)` is the bit-vector `x[msb:lsb]` of width `msb - lsb + 1`. -/
theorem C19_slice (m : Mode) {w : Nat} {a : BitVecValue} {x : BitVec w} (ha : Denotes a x) {msb lsb : Nat}
    (h1 : msb < w) (h2 : lsb ≤ msb) :
    ∃ r, BitVecValue.slice m a msb lsb = ok r ∧ Denotes r (x.extractLsb' lsb (msb - lsb + 1)) := by
  have hw : w < 4294967296 := ha.width_lt
  obtain ⟨r, hr1, hr2, hr3⟩ := Arith.slice_spec (m := m) (d := valueVecZeros (msb - lsb + 1)) (src := a.words) h2
    (by rw [ha.length_eq]; omega) (by show _ < 4294967296; omega) (length_valueVecZeros _)
  refine ⟨⟨_, r⟩, ?_, Denotes.of_bit (by show _ < 4294967296; omega) rfl (by rw [← length_valueVecZeros]; exact hr2)
    fun i => ?_⟩
  · rw [slice_eq_of (by rw [ha.width_eq]; omega) h2 (by show _ < 4294967296; omega), hr1, ok_bind]
  · rw [hr3, ha.bit, BitVec.getLsbD_extractLsb', Nat.add_comm i]

/-- The same fact bit by bit. -/
theorem C19_slice_bit (m : Mode) {w : Nat} {a : BitVecValue} {x : BitVec w} (ha : Denotes a x) {msb lsb : Nat}
    (h1 : msb < w) (h2 : lsb ≤ msb) :
    ∃ r, BitVecValue.slice m a msb lsb = ok r ∧ Canonical r ∧ r.width = msb - lsb + 1 ∧
      ∀ i, i < r.width → bit r.words i = bit a.words (lsb + i) := by
  obtain ⟨r, hr1, hr2⟩ := C19_slice m ha h1 h2
  refine ⟨r, hr1, hr2.canonical, hr2.width_eq, fun i hi => ?_⟩
  rw [hr2.width_eq] at hi
  rw [hr2.bit, ha.bit, BitVec.getLsbD_extractLsb', decide_eq_true hi, Bool.true_and]

example : ∃ a : BitVecValue, Denotes a (BitVec.ofNat 130 (5 * 2 ^ 100)) ∧
    BitVecValue.slice .debug a 110 60 = ok (encode (BitVec.ofNat 51 (5 * 2 ^ 40))) :=
  ⟨encode _, encode_denotes _ (by decide), by decide⟩

/-- **C20, full statement** (false of the code, see `C20_refuted`). -/
def C20_statement : Prop :=
  ∀ {w : Nat} {a : BitVecValue} {x : BitVec w}, Denotes a x → ∀ {msb lsb : Nat}, w ≤ msb → msb < 2 ^ 32 →
    Panics (BitVecValue.slice .debug a msb lsb)

/-- **C20, proved part**: a debug build rejects every `msb > w`, and `msb = w` when the width is a multiple of 64.
Missing: `msb = w` for other widths, which the off-by-one assertion `msb <= width` lets through. -/
theorem C20_slice_msb_partial {w : Nat} {a : BitVecValue} {x : BitVec w} (ha : Denotes a x) {msb lsb : Nat}
    (h : w < msb ∨ (msb = w ∧ w % 64 = 0)) : Panics (BitVecValue.slice .debug a msb lsb) := by
  unfold BitVecValue.slice
  by_cases h1 : w < msb
  · have : ¬ msb ≤ a.width := by rw [ha.width_eq]; omega
    refine ⟨.debugAssert, ?_⟩
    simp [debugAssert, this]
  · obtain ⟨rfl, h0⟩ : msb = w ∧ w % 64 = 0 := by omega
    have hle : msb ≤ a.width := by rw [ha.width_eq]; omega
    rw [debugAssert_decide_of hle, ok_bind]
    by_cases h2 : lsb ≤ msb
    · have hb : ∀ d, Arith.slice .debug d a.words msb lsb = panic .bounds := fun d => by
        unfold Arith.slice
        have : ¬ (lsb / 64 ≤ msb / 64 + 1 ∧ msb / 64 + 1 ≤ a.words.length) := by rw [ha.length_eq]; omega
        simp only [sliceR, BITS, if_neg this, panic_bind]
      rw [debugAssert_decide_of (p := msb ≥ lsb) h2, ok_bind, subC_ok h2, ok_bind]
      by_cases h3 : msb - lsb + 1 < U32
      · rw [addC_ok h3, ok_bind]
        dsimp only
        by_cases h4 : msb - lsb + 1 ≤ BITS
        · rw [if_pos h4, modifyRange_full (by rw [length_zeros]; simp only [BITS] at h4; omega), hb]
          exact ⟨_, rfl⟩
        · rw [if_neg h4, hb]; exact ⟨_, rfl⟩
      · exact ⟨.overflow, by simp only [addC, if_neg h3, panic_bind]⟩
    · exact ⟨.debugAssert, by simp [debugAssert, h2]⟩

/-- What happens in the remaining case: bit `w` of the result is invented (it reads as 0). -/
theorem C20_slice_msb_eq_width (m : Mode) {w : Nat} (hw : w % 64 ≠ 0) {a : BitVecValue} {x : BitVec w}
    (ha : Denotes a x) {lsb : Nat} (h2 : lsb ≤ w) (h3 : w - lsb + 1 < 2 ^ 32) :
    ∃ r, BitVecValue.slice m a w lsb = ok r ∧ Denotes r (x.extractLsb' lsb (w - lsb + 1)) := by
  obtain ⟨r, hr1, hr2, hr3⟩ := Arith.slice_spec (m := m) (d := valueVecZeros (w - lsb + 1)) (src := a.words) h2
    (by rw [ha.length_eq]; omega) h3 (length_valueVecZeros _)
  refine ⟨⟨_, r⟩, ?_, Denotes.of_bit h3 rfl (by rw [← length_valueVecZeros]; exact hr2) fun i => ?_⟩
  · rw [slice_eq_of (by rw [ha.width_eq]; omega) h2 h3, hr1, ok_bind]
  · rw [hr3, ha.bit, BitVec.getLsbD_extractLsb', Nat.add_comm i]

/-- **C20 is false of the code**: bit 8 of an 8-bit value can be sliced out in a debug build. -/
theorem C20_refuted : ¬ C20_statement := fun h => by
  obtain ⟨p, hp⟩ := h (encode_denotes 255#8 (by decide)) (msb := 8) (lsb := 8) (by decide) (by decide)
  have : BitVecValue.slice .debug (encode 255#8) 8 8 = ok ⟨1, [0#64]⟩ := by decide
  rw [this] at hp
  cases hp

example : Panics (BitVecValue.slice .debug (encode 255#8) 9 0) := ⟨.debugAssert, by decide⟩

/-! ## C21 concat -/

theorem concat_eq_of {m : Mode} {a b : BitVecValue} {w v : Nat} (ha : a.width = w) (hb : b.width = v) (h0 : 0 < w)
    (h0' : 0 < v) (hal : a.words.length = (w + 63) / 64) (hbl : b.words.length = (v + 63) / 64) (hlt : w + v < U32) :
    BitVecValue.concat m a b =
      (Arith.concat m (valueVecZeros (w + v)) a.words b.words v >>= fun out => ok ⟨w + v, out⟩) := by
  unfold BitVecValue.concat
  rw [ha, hb, addC_ok hlt, ok_bind]
  dsimp only
  by_cases h : w + v ≤ BITS
  · simp only [BITS] at h
    rw [if_pos h, modifyRange_full (by rw [length_zeros]; omega), sliceR_full (by omega), ok_bind,
      sliceR_full (by omega), ok_bind]
  · rw [if_neg h]

/-- **C21, full statement** (false of the code at width 0, see `C21_refuted`). -/
def C21_statement : Prop :=
  ∀ (m : Mode) {w v : Nat} {a b : BitVecValue} {x : BitVec w} {y : BitVec v}, Denotes a x → Denotes b y →
    w + v < 2 ^ 32 → ∃ r, BitVecValue.concat m a b = ok r ∧ Denotes r (x ++ y)

theorem concat_words (m : Mode) {w v : Nat} {a b : BitVecValue} {x : BitVec w} {y : BitVec v} (ha : Denotes a x)
    (hb : Denotes b y) (hlt : w + v < 2 ^ 32) :
    ∃ r, Arith.concat m (valueVecZeros (w + v)) a.words b.words v = ok r ∧ Denotes ⟨w + v, r⟩ (x ++ y) := by
  obtain ⟨r, hr1, hr2, hr3⟩ := Arith.concat_spec (m := m) (d := valueVecZeros (w + v)) ha.length_eq hb.length_eq
    (length_valueVecZeros _) (by rw [ha.val_eq]; exact x.isLt) (by rw [hb.val_eq]; exact y.isLt)
  refine ⟨r, hr1, Denotes.of_bit hlt rfl (by rw [← length_valueVecZeros]; exact hr2) fun i => ?_⟩
  rw [hr3, ha.bit, hb.bit, BitVec.getLsbD_append]

/-- **C21** for non-zero widths: the left operand ends up above the right operand. -/
theorem C21_concat_partial (m : Mode) {w v : Nat} {a b : BitVecValue} {x : BitVec w} {y : BitVec v} (ha : Denotes a x)
    (hb : Denotes b y) (hlt : w + v < 2 ^ 32) (h : (0 < w ∧ 0 < v) ∨ 64 < w + v) :
    ∃ r, BitVecValue.concat m a b = ok r ∧ Denotes r (x ++ y) := by
  obtain ⟨r, hr1, hr2⟩ := concat_words m ha hb hlt
  refine ⟨⟨w + v, r⟩, ?_, hr2⟩
  by_cases h0 : 0 < w ∧ 0 < v
  · rw [concat_eq_of ha.width_eq hb.width_eq h0.1 h0.2 ha.length_eq hb.length_eq hlt, hr1, ok_bind]
  · have h' : ¬ w + v ≤ 64 := by omega
    unfold BitVecValue.concat
    rw [ha.width_eq, hb.width_eq, addC_ok hlt, ok_bind]
    dsimp only [BITS]
    rw [if_neg h', hr1, ok_bind]

/-- The same fact in terms of numbers: `a * 2^wb + b`. -/
theorem C21_concat_toNat_partial (m : Mode) {w v : Nat} {a b : BitVecValue} {x : BitVec w} {y : BitVec v}
    (ha : Denotes a x) (hb : Denotes b y) (hlt : w + v < 2 ^ 32) (h : (0 < w ∧ 0 < v) ∨ 64 < w + v) :
    ∃ r, BitVecValue.concat m a b = ok r ∧ r.width = w + v ∧ wordsVal r.words = x.toNat * 2 ^ v + y.toNat := by
  obtain ⟨r, hr1, hr2⟩ := C21_concat_partial m ha hb hlt h
  refine ⟨r, hr1, hr2.width_eq, ?_⟩
  rw [hr2.val_eq, BitVec.toNat_append, Nat.shiftLeft_eq, Nat.mul_comm, ← Nat.two_pow_add_eq_or_of_lt y.isLt]

/-- **C21 is false of the code** when one operand has width 0 and the result at most 64 bits: the code panics. -/
theorem C21_refuted : ¬ C21_statement := fun h => by
  obtain ⟨r, hr, _⟩ := h .debug (encode_denotes 0#0 (by decide)) (encode_denotes 5#8 (by decide)) (by decide)
  have : BitVecValue.concat .debug (encode 0#0) (encode 5#8) = panic .bounds := by decide
  rw [this] at hr
  cases hr

example : ∃ a b : BitVecValue, Denotes a (5#3) ∧ Denotes b (BitVec.allOnes 70) ∧
    BitVecValue.concat .debug a b = ok ⟨73, [BitVec.allOnes 64, 0x17f#64]⟩ :=
  ⟨encode 5#3, encode (BitVec.allOnes 70), encode_denotes _ (by decide), encode_denotes _ (by decide), by decide⟩

/-! ## C22 zero_extend -/

/-- **C22, full statement** (false of the code for width 0, see `C22_refuted`). -/
def C22_statement : Prop :=
  ∀ (m : Mode) {w : Nat} {a : BitVecValue} {x : BitVec w}, Denotes a x → ∀ (n : Nat), w + n < 2 ^ 32 →
    ∃ r, BitVecValue.zeroExtend m a n = ok r ∧ Denotes r (x.setWidth (w + n))

/-- **C22** (for source width ≥ 1, or result wider than 64 bits): `zero_extend(n)` has width `w + n` and the same
unsigned value. -/
theorem C22_zero_extend_partial (m : Mode) {w : Nat} {a : BitVecValue} {x : BitVec w} (ha : Denotes a x) (n : Nat)
    (hlt : w + n < 2 ^ 32) (h : 0 < w ∨ 64 < w + n) :
    ∃ r, BitVecValue.zeroExtend m a n = ok r ∧ Denotes r (x.setWidth (w + n)) ∧ wordsVal r.words = x.toNat := by
  obtain ⟨r, hr1, hr2, hr3⟩ := Arith.zeroExtend_spec (d := valueVecZeros (w + n)) (src := a.words)
    (by rw [length_valueVecZeros, ha.length_eq]; omega)
  have hd : Denotes ⟨w + n, r⟩ (x.setWidth (w + n)) := by
    refine Denotes.of_bit hlt rfl (by rw [← length_valueVecZeros]; exact hr2) fun i => ?_
    rw [hr3, ha.bit, BitVec.getLsbD_setWidth]
    by_cases hi : i < w + n
    · simp [hi]
    · rw [BitVec.getLsbD_of_ge _ _ (by omega)]; simp
  refine ⟨⟨w + n, r⟩, ?_, hd, ?_⟩
  · unfold BitVecValue.zeroExtend
    rw [ha.width_eq, addC_ok hlt, ok_bind]
    dsimp only [BITS]
    by_cases h1 : w + n ≤ 64
    · rw [if_pos h1, modifyRange_full (by rw [length_zeros]; omega), sliceR_full (by rw [ha.length_eq]; omega), ok_bind,
        hr1, ok_bind]
    · rw [if_neg h1, hr1, ok_bind]
  · rw [hd.val_eq, BitVec.toNat_setWidth, Nat.mod_eq_of_lt]
    exact Nat.lt_of_lt_of_le x.isLt (Nat.pow_le_pow_right (by decide) (by omega))

/-- **C22 is false of the code** for a value of width 0 extended to at most 64 bits: the code panics. -/
theorem C22_refuted : ¬ C22_statement := fun h => by
  obtain ⟨r, hr, _⟩ := h .debug (encode_denotes 0#0 (by decide)) 8 (by decide)
  have : BitVecValue.zeroExtend .debug (encode 0#0) 8 = panic .bounds := by decide
  rw [this] at hr
  cases hr

example : ∃ a : BitVecValue, Denotes a (9#5) ∧ BitVecValue.zeroExtend .debug a 130 = ok (encode 9#135) :=
  ⟨encode 9#5, encode_denotes _ (by decide), by decide⟩

/-! ## C23 sign_extend -/

/-- **C23**: for `w ≥ 1`, `sign_extend(n)` has width `w + n` and the same two's complement value. -/
theorem C23_sign_extend (m : Mode) {w : Nat} (hw : 0 < w) {a : BitVecValue} {x : BitVec w} (ha : Denotes a x) (n : Nat)
    (hlt : w + n < 2 ^ 32) :
    ∃ r, BitVecValue.signExtend m a n = ok r ∧ Denotes r (x.signExtend (w + n)) ∧
      (x.signExtend (w + n)).toInt = x.toInt := by
  obtain ⟨r, hr1, hr2, hr3⟩ := Arith.signExtend_spec (m := m) (d := valueVecZeros (w + n)) (src := a.words) (sw := w)
    (dw := w + n) hw (by omega) ha.length_eq (length_valueVecZeros _) (by rw [ha.val_eq]; exact x.isLt)
  refine ⟨⟨w + n, r⟩, ?_, Denotes.of_bit hlt rfl (by rw [← length_valueVecZeros]; exact hr2) fun i => ?_,
    BitVec.toInt_signExtend_of_le (by omega)⟩
  · unfold BitVecValue.signExtend
    rw [ha.width_eq, addC_ok hlt, ok_bind]
    dsimp only [BITS]
    by_cases h1 : w + n ≤ 64
    · rw [if_pos h1, modifyRange_full (by rw [length_zeros]; omega), sliceR_full (by rw [ha.length_eq]; omega), ok_bind,
        hr1, ok_bind]
    · rw [if_neg h1, hr1, ok_bind]
  · rw [hr3, ha.bit, ha.bit, BitVec.getLsbD_signExtend, BitVec.msb_eq_getLsbD_last]

example : ∃ a : BitVecValue, Denotes a (-3#5) ∧ BitVecValue.signExtend .debug a 130 = ok (encode (-3#135)) :=
  ⟨encode (-3#5), encode_denotes _ (by decide), by decide⟩

/-! ## C24 single bits -/

/-- **C24** `is_bit_set`. -/
theorem C24_is_bit_set {w : Nat} {a : BitVecValue} {x : BitVec w} (ha : Denotes a x) {pos : Nat} (h : pos < w) :
    BitVecValue.isBitSet a pos = ok (x.getLsbD pos) := by
  unfold BitVecValue.isBitSet
  rw [Arith.isBitSet_spec (by rw [ha.length_eq]; omega), ha.bit]

/-- **C24** `set_bit`: sets bit `pos` and no other bit. -/
theorem C24_set_bit {w : Nat} {a : BitVecValue} {x : BitVec w} (ha : Denotes a x) {pos : Nat} (h : pos < w) :
    ∃ r z, BitVecValue.setBit a pos = ok r ∧ Denotes r (z : BitVec w) ∧
      ∀ i, z.getLsbD i = (x.getLsbD i || decide (i = pos)) := by
  obtain ⟨r, hr1, hr2, hr3⟩ := Arith.setBit_spec (dst := a.words) (pos := pos) (by rw [ha.length_eq]; omega)
  have hz : ∀ i, (x ||| BitVec.twoPow w pos).getLsbD i = (x.getLsbD i || decide (i = pos)) := fun i => by
    rw [BitVec.getLsbD_or, BitVec.getLsbD_twoPow]
    congr 1
    by_cases hi : i = pos
    · subst hi; simp [h]
    · have : ¬ pos = i := fun e => hi e.symm
      simp [hi, this]
  refine ⟨{ a with words := r }, x ||| BitVec.twoPow w pos, ?_, ?_, hz⟩
  · rw [BitVecValue.setBit, hr1, ok_bind]
  · exact Denotes.of_bit ha.width_lt ha.width_eq (by rw [← ha.length_eq]; exact hr2) fun i => by
      rw [hz, ← ha.bit]; exact hr3 i

/-- **C24** `clear_bit`: clears bit `pos` and no other bit. -/
theorem C24_clear_bit {w : Nat} {a : BitVecValue} {x : BitVec w} (ha : Denotes a x) {pos : Nat} (h : pos < w) :
    ∃ r z, BitVecValue.clearBit a pos = ok r ∧ Denotes r (z : BitVec w) ∧
      ∀ i, z.getLsbD i = (x.getLsbD i && decide (i ≠ pos)) := by
  obtain ⟨r, hr1, hr2, hr3⟩ := Arith.clearBit_spec (dst := a.words) (pos := pos) (by rw [ha.length_eq]; omega)
  have hz : ∀ i, (x &&& ~~~BitVec.twoPow w pos).getLsbD i = (x.getLsbD i && decide (i ≠ pos)) := fun i => by
    rw [BitVec.getLsbD_and, BitVec.getLsbD_not, BitVec.getLsbD_twoPow]
    by_cases hi : i = pos
    · subst hi; simp [h]
    · have h1 : ¬ pos = i := fun e => hi e.symm
      by_cases h2 : i < w
      · simp [hi, h1, h2]
      · rw [BitVec.getLsbD_of_ge _ _ (by omega)]; simp
  refine ⟨{ a with words := r }, x &&& ~~~BitVec.twoPow w pos, ?_, ?_, hz⟩
  · rw [BitVecValue.clearBit, hr1, ok_bind]
  · exact Denotes.of_bit ha.width_lt ha.width_eq (by rw [← ha.length_eq]; exact hr2) fun i => by
      rw [hz, ← ha.bit]
      have := hr3 i
      simpa using this

example : ∃ a : BitVecValue, Denotes a (0#100) ∧ BitVecValue.setBit a 99 = ok (encode (BitVec.twoPow 100 99)) ∧
    BitVecValue.isBitSet (encode (BitVec.twoPow 100 99)) 99 = ok true :=
  ⟨encode 0#100, encode_denotes _ (by decide), by decide, by decide⟩

/-! ## C61 structural laws -/

/-- **C61**: cutting a value at `0 < k < w` and concatenating the pieces gives back the same value. -/
theorem C61_concat_slices (m : Mode) {w : Nat} {a : BitVecValue} {x : BitVec w} (ha : Denotes a x) {k : Nat}
    (h0 : 0 < k) (hk : k < w) :
    ∃ hi lo, BitVecValue.slice m a (w - 1) k = ok hi ∧ BitVecValue.slice m a (k - 1) 0 = ok lo ∧
      BitVecValue.concat m hi lo = ok a := by
  have hw := ha.width_lt
  obtain ⟨hi, h1, h2⟩ := C19_slice m ha (msb := w - 1) (lsb := k) (by omega) (by omega)
  obtain ⟨lo, h3, h4⟩ := C19_slice m ha (msb := k - 1) (lsb := 0) (by omega) (by omega)
  obtain ⟨r, h5, h6⟩ := C21_concat_partial m h2 h4 (by omega) (.inl ⟨by omega, by omega⟩)
  refine ⟨hi, lo, h1, h3, ?_⟩
  have e : r = a := by
    cases r with
    | mk rw rws =>
      cases a with
      | mk aw aws =>
        have e1 : rw = aw := by
          have := h6.width_eq; have := ha.width_eq; simp only at *; omega
        have e2 : rws = aws := by
          apply eq_of_bit
          · have := h6.length_eq; have := ha.length_eq; simp only at *; rw [‹rws.length = _›, ‹aws.length = _›]
            congr 1; omega
          · intro i
            have b1 := h6.bit i
            have b2 := ha.bit i
            simp only at b1 b2
            rw [b1, b2, BitVec.getLsbD_append, BitVec.getLsbD_extractLsb', BitVec.getLsbD_extractLsb']
            by_cases hi : i < k
            · have h7 : i < k - 1 - 0 + 1 := by omega
              rw [if_pos h7, decide_eq_true h7, Bool.true_and, Nat.zero_add]
            · have h7 : ¬ i < k - 1 - 0 + 1 := by omega
              have h8 : k + (i - (k - 1 - 0 + 1)) = i := by omega
              rw [if_neg h7, h8]
              by_cases h9 : i < w
              · have : i - (k - 1 - 0 + 1) < w - 1 - k + 1 := by omega
                rw [decide_eq_true this, Bool.true_and]
              · rw [BitVec.getLsbD_of_ge _ _ (by omega)]; simp
        rw [e1, e2]
  rw [h5, e]

/-- **C61**: slicing a concatenation gives back both operands. -/
theorem C61_slice_concat (m : Mode) {w v : Nat} {a b : BitVecValue} {x : BitVec w} {y : BitVec v} (ha : Denotes a x)
    (hb : Denotes b y) (h0 : 0 < w) (h0' : 0 < v) (hlt : w + v < 2 ^ 32) :
    ∃ c, BitVecValue.concat m a b = ok c ∧ BitVecValue.slice m c (w + v - 1) v = ok a ∧
      BitVecValue.slice m c (v - 1) 0 = ok b := by
  obtain ⟨c, h1, h2⟩ := C21_concat_partial m ha hb hlt (.inl ⟨h0, h0'⟩)
  obtain ⟨p, h3, h4⟩ := C19_slice m h2 (msb := w + v - 1) (lsb := v) (by omega) (by omega)
  obtain ⟨q, h5, h6⟩ := C19_slice m h2 (msb := v - 1) (lsb := 0) (by omega) (by omega)
  refine ⟨c, h1, ?_, ?_⟩
  · rw [h3]; congr 1
    have e : w + v - 1 - v + 1 = w := by omega
    have : Denotes p x := by
      refine Denotes.of_bit ha.width_lt (by rw [h4.width_eq, e]) (by rw [h4.length_eq, e]) fun i => ?_
      rw [h4.bit, BitVec.getLsbD_extractLsb', BitVec.getLsbD_append, e]
      have h7 : ¬ v + i < v := by omega
      have h8 : v + i - v = i := by omega
      rw [if_neg h7, h8]
      by_cases hi : i < w
      · simp [hi]
      · rw [BitVec.getLsbD_of_ge _ _ (by omega)]; simp
    exact this.repr_unique ha
  · rw [h5]; congr 1
    have e : v - 1 - 0 + 1 = v := by omega
    have : Denotes q y := by
      refine Denotes.of_bit hb.width_lt (by rw [h6.width_eq, e]) (by rw [h6.length_eq, e]) fun i => ?_
      rw [h6.bit, BitVec.getLsbD_extractLsb', BitVec.getLsbD_append, e, Nat.zero_add]
      by_cases hi : i < v
      · simp [hi]
      · rw [BitVec.getLsbD_of_ge _ _ (by omega)]; simp [hi]
    exact this.repr_unique hb

/-- **C61**: slicing the low bits of a zero extension gives back the value. -/
theorem C61_slice_zero_extend (m : Mode) {w : Nat} {a : BitVecValue} {x : BitVec w} (ha : Denotes a x) (h0 : 0 < w)
    (n : Nat) (hlt : w + n < 2 ^ 32) :
    ∃ c, BitVecValue.zeroExtend m a n = ok c ∧ BitVecValue.slice m c (w - 1) 0 = ok a := by
  obtain ⟨c, h1, h2, _⟩ := C22_zero_extend_partial m ha n hlt (.inl h0)
  obtain ⟨q, h5, h6⟩ := C19_slice m h2 (msb := w - 1) (lsb := 0) (by omega) (by omega)
  refine ⟨c, h1, ?_⟩
  rw [h5]; congr 1
  have e : w - 1 - 0 + 1 = w := by omega
  have : Denotes q x := by
    refine Denotes.of_bit ha.width_lt (by rw [h6.width_eq, e]) (by rw [h6.length_eq, e]) fun i => ?_
    rw [h6.bit, BitVec.getLsbD_extractLsb', BitVec.getLsbD_setWidth, e, Nat.zero_add]
    by_cases hi : i < w
    · have : i < w + n := by omega
      rw [decide_eq_true hi, decide_eq_true this]; simp
    · rw [BitVec.getLsbD_of_ge x i (by omega)]; simp
  exact this.repr_unique ha

/-- **C61**: slicing the low bits of a sign extension gives back the value. -/
theorem C61_slice_sign_extend (m : Mode) {w : Nat} {a : BitVecValue} {x : BitVec w} (ha : Denotes a x) (h0 : 0 < w)
    (n : Nat) (hlt : w + n < 2 ^ 32) :
    ∃ c, BitVecValue.signExtend m a n = ok c ∧ BitVecValue.slice m c (w - 1) 0 = ok a := by
  obtain ⟨c, h1, h2, _⟩ := C23_sign_extend m h0 ha n hlt
  obtain ⟨q, h5, h6⟩ := C19_slice m h2 (msb := w - 1) (lsb := 0) (by omega) (by omega)
  refine ⟨c, h1, ?_⟩
  rw [h5]; congr 1
  have e : w - 1 - 0 + 1 = w := by omega
  have : Denotes q x := by
    refine Denotes.of_bit ha.width_lt (by rw [h6.width_eq, e]) (by rw [h6.length_eq, e]) fun i => ?_
    rw [h6.bit, BitVec.getLsbD_extractLsb', BitVec.getLsbD_signExtend, e, Nat.zero_add]
    by_cases hi : i < w
    · have : i < w + n := by omega
      rw [decide_eq_true hi, decide_eq_true this, if_pos hi]; simp
    · rw [BitVec.getLsbD_of_ge x i (by omega), decide_eq_false hi]; simp
  exact this.repr_unique ha

/-- **C61**: a slice of a slice is a slice. -/
theorem C61_slice_slice (m : Mode) {w : Nat} {a : BitVecValue} {x : BitVec w} (ha : Denotes a x) {h l h' l' : Nat}
    (hh : h < w) (hl : l ≤ h) (hh' : h' ≤ h - l) (hl' : l' ≤ h') :
    ∃ c, BitVecValue.slice m a h l = ok c ∧
      BitVecValue.slice m c h' l' = BitVecValue.slice m a (l + h') (l + l') := by
  obtain ⟨c, h1, h2⟩ := C19_slice m ha hh hl
  obtain ⟨p, h3, h4⟩ := C19_slice m h2 (msb := h') (lsb := l') (by omega) hl'
  obtain ⟨q, h5, h6⟩ := C19_slice m ha (msb := l + h') (lsb := l + l') (by omega) (by omega)
  refine ⟨c, h1, ?_⟩
  rw [h3, h5]; congr 1
  have e : l + h' - (l + l') + 1 = h' - l' + 1 := by omega
  have : Denotes q ((x.extractLsb' l (h - l + 1)).extractLsb' l' (h' - l' + 1)) := by
    refine Denotes.of_bit h4.width_lt (by rw [h6.width_eq, e]) (by rw [h6.length_eq, e]) fun i => ?_
    rw [h6.bit, BitVec.getLsbD_extractLsb', BitVec.getLsbD_extractLsb', BitVec.getLsbD_extractLsb', e, Nat.add_assoc]
    by_cases hi : i < h' - l' + 1
    · have : l' + i < h - l + 1 := by omega
      rw [decide_eq_true this, Bool.true_and]
    · simp [hi]
  exact h4.repr_unique this

/-- **C61**: concatenation is associative. -/
theorem C61_concat_assoc (m : Mode) {u v w : Nat} {a b c : BitVecValue} {x : BitVec u} {y : BitVec v} {z : BitVec w}
    (ha : Denotes a x) (hb : Denotes b y) (hc : Denotes c z) (hu : 0 < u) (hv : 0 < v) (hw : 0 < w)
    (hlt : u + v + w < 2 ^ 32) :
    ∃ ab bc r, BitVecValue.concat m a b = ok ab ∧ BitVecValue.concat m b c = ok bc ∧
      BitVecValue.concat m ab c = ok r ∧ BitVecValue.concat m a bc = ok r := by
  obtain ⟨ab, h1, h2⟩ := C21_concat_partial m ha hb (by omega) (.inl ⟨hu, hv⟩)
  obtain ⟨bc, h3, h4⟩ := C21_concat_partial m hb hc (by omega) (.inl ⟨hv, hw⟩)
  obtain ⟨r, h5, h6⟩ := C21_concat_partial m h2 hc (by omega) (.inl ⟨by omega, hw⟩)
  obtain ⟨s, h7, h8⟩ := C21_concat_partial m ha h4 (by omega) (.inl ⟨hu, by omega⟩)
  refine ⟨ab, bc, r, h1, h3, h5, ?_⟩
  rw [h7]; congr 1
  have : Denotes s (x ++ y ++ z) := by
    refine Denotes.of_bit h6.width_lt (by rw [h8.width_eq]; omega) (by rw [h8.length_eq]; congr 1; omega) fun i => ?_
    rw [h8.bit, BitVec.getLsbD_append, BitVec.getLsbD_append, BitVec.getLsbD_append, BitVec.getLsbD_append]
    by_cases h9 : i < w
    · rw [if_pos (by omega), if_pos h9, if_pos h9]
    · by_cases h10 : i < v + w
      · rw [if_pos h10, if_neg h9, if_neg h9, if_pos (by omega)]
      · rw [if_neg h10, if_neg h9, if_neg (by omega)]
        congr 1; omega
  exact this.repr_unique h6

example : BitVecValue.concat .debug (encode 5#3) (encode 9#70) = ok (encode (5#3 ++ 9#70)) ∧
    BitVecValue.slice .debug (encode (5#3 ++ 9#70)) 72 70 = ok (encode 5#3) := by decide

end Baa
