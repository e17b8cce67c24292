import Verif.Props.Slice
import Verif.Props.Compare
import Verif.Props.Parse
import Verif.Props.BytesBig

/-!
# What the code does where a property fails

For the properties of bit-vectors that are false in a corner, these theorems describe the behaviour in that corner for all
inputs, so that together with the `_partial` theorems every input is covered.
-/

namespace Baa
open Res BitVecValue

/-! ## C04, C05 -/

/-- **C04, exact**: `to_i64` of a value of any width. A negative value wider than 64 bits is converted only if its width is a
multiple of 64. -/
theorem C04_to_i64_exact (m : Mode) {w : Nat} {a : BitVecValue} {x : BitVec w} (ha : Denotes a x) :
    BitVecValue.toI64 m a =
      ok (if -(2 ^ 63 : Int) ≤ x.toInt ∧ x.toInt < 2 ^ 63 ∧ ¬ (x.toInt < 0 ∧ 64 < w ∧ w % 64 ≠ 0)
        then some (BitVec.ofInt 64 x.toInt) else none) := by
  by_cases h : w ≤ 64 ∨ w % 64 = 0 ∨ 0 ≤ x.toInt ∨ x.toInt < -(2 ^ 63 : Int)
  · rw [C04_to_i64_partial m ha h]
    congr 1
    have : (-(2 ^ 63 : Int) ≤ x.toInt ∧ x.toInt < 2 ^ 63) ↔
        (-(2 ^ 63 : Int) ≤ x.toInt ∧ x.toInt < 2 ^ 63 ∧ ¬ (x.toInt < 0 ∧ 64 < w ∧ w % 64 ≠ 0)) := by omega
    simp only [this]
  · rw [toI64_wide m (by omega) ha, if_neg (by omega), if_neg (by omega)]

/-- **C05, exact**: the round trip through `i64` fails for every negative number in the excluded widths. -/
theorem C05_negative_lost (m : Mode) {w : Nat} (hw : w < 2 ^ 32) (h64 : 64 < w) (hmod : w % 64 ≠ 0) (v : Word)
    (hv : v.toInt < 0) :
    ∃ r, BitVecValue.fromI64 m v w = ok r ∧ BitVecValue.toI64 m r = ok none := by
  have h4 := fitsSigned_toInt (w := 64) (by decide) v
  have hp : (2 : Int) ^ 63 ≤ 2 ^ (w - 1) := by exact_mod_cast Nat.pow_le_pow_right (by decide) (by omega)
  have hf : FitsSigned v.toInt w := by
    obtain ⟨h5, h6⟩ := h4
    constructor
    · have : -(2 ^ (64 - 1) : Int) ≤ v.toInt := h5
      omega
    · omega
  obtain ⟨r, z, h1, h2, h3⟩ := C02_from_i64 m (by omega) hw v hf
  refine ⟨r, h1, ?_⟩
  rw [C04_to_i64_exact m h2, h3, if_neg (by omega)]

example : BitVecValue.toI64 .debug (encode (-5#70)) = ok none ∧ (-5#70).toInt = -5 := by decide

/-! ## C17 -/

/-- **C17, exact**: for more than 64 bits (and for width 0) `>=` and `<=` are the strict comparisons. -/
theorem C17_exact (m : Mode) {w : Nat} {a b : BitVecValue} {x y : BitVec w} (ha : Denotes a x) (hb : Denotes b y) :
    BitVecValue.isGreaterOrEqual m a b =
      ok (if 0 < w ∧ w ≤ 64 then decide (y.toNat ≤ x.toNat) else decide (y.toNat < x.toNat)) ∧
    BitVecValue.isLessOrEqual m a b =
      ok (if 0 < w ∧ w ≤ 64 then decide (x.toNat ≤ y.toNat) else decide (x.toNat < y.toNat)) := by
  have key : ∀ {a b : BitVecValue} {x y : BitVec w}, Denotes a x → Denotes b y → BitVecValue.isGreaterOrEqual m a b =
      ok (if 0 < w ∧ w ≤ 64 then decide (y.toNat ≤ x.toNat) else decide (y.toNat < x.toNat)) := by
    intro a b x y ha hb
    by_cases h : 0 < w ∧ w ≤ 64
    · rw [C17_is_greater_or_equal_partial m ha hb (.inl h), if_pos h]
    · have hl : a.words.length = b.words.length := by rw [ha.length_eq, hb.length_eq]
      unfold BitVecValue.isGreaterOrEqual
      rw [assertSame_ok (by rw [ha.width_eq, hb.width_eq]) hl, ok_bind, if_neg (by rw [ha.length_eq]; omega),
        Arith.cmpGreater_spec hl, ha.val_eq, hb.val_eq, if_neg h]
  exact ⟨key ha hb, key hb ha⟩

example : BitVecValue.isGreaterOrEqual .debug (encode 5#65) (encode 5#65) = ok false ∧
    BitVecValue.isGreaterOrEqual .debug (encode 6#65) (encode 5#65) = ok true := by decide

/-! ## C20 -/

/-- **C20, exact, release builds**: without the assertion, `slice` reads zeros above the width as long as `msb` is inside of
the last word, and panics beyond. -/
theorem C20_slice_release {w : Nat} {a : BitVecValue} {x : BitVec w} (ha : Denotes a x) {msb lsb : Nat} (h : lsb ≤ msb)
    (hlt : msb - lsb + 1 < 2 ^ 32) :
    (msb < 64 * ((w + 63) / 64) →
      ∃ r, BitVecValue.slice .release a msb lsb = ok r ∧ Denotes r (x.extractLsb' lsb (msb - lsb + 1))) ∧
    (64 * ((w + 63) / 64) ≤ msb → Panics (BitVecValue.slice .release a msb lsb)) := by
  have heq : BitVecValue.slice .release a msb lsb =
      (Arith.slice .release (valueVecZeros (msb - lsb + 1)) a.words msb lsb >>= fun out => ok ⟨msb - lsb + 1, out⟩) := by
    unfold BitVecValue.slice
    rw [show debugAssert .release (decide (msb ≤ a.width)) = ok () from rfl, ok_bind,
      show debugAssert .release (decide (msb ≥ lsb)) = ok () from rfl, ok_bind, subC_ok h, ok_bind,
      addC_ok (show _ < 4294967296 by omega), ok_bind]
    dsimp only
    by_cases h : msb - lsb + 1 ≤ BITS
    · rw [if_pos h, modifyRange_full (by rw [length_zeros]; simp only [BITS] at h; omega)]
    · rw [if_neg h]
  rw [heq]
  constructor
  · intro hm
    obtain ⟨r, hr1, hr2, hr3⟩ := Arith.slice_spec (m := .release) (d := valueVecZeros (msb - lsb + 1)) (src := a.words) h
      (by rw [ha.length_eq]; omega) hlt (length_valueVecZeros _)
    refine ⟨⟨_, r⟩, by rw [hr1, ok_bind], Denotes.of_bit hlt rfl (by rw [← length_valueVecZeros]; exact hr2) fun i => ?_⟩
    rw [hr3, ha.bit, BitVec.getLsbD_extractLsb', Nat.add_comm i]
  · intro hm
    have : ¬ (lsb / 64 ≤ msb / 64 + 1 ∧ msb / 64 + 1 ≤ a.words.length) := by rw [ha.length_eq]; omega
    unfold Arith.slice
    simp only [sliceR, BITS, if_neg this, panic_bind]
    exact ⟨_, rfl⟩

example : BitVecValue.slice .release (encode 255#8) 60 4 = ok (encode 15#57) ∧
    Panics (BitVecValue.slice .release (encode 255#8) 64 4) := ⟨by decide, ⟨.bounds, by decide⟩⟩

/-! ## C21, C22 -/

/-- **C21, exact**: `concat` with an operand of width 0 panics if the result has at most 64 bits. -/
theorem C21_zero_width_panics (m : Mode) {w v : Nat} {a b : BitVecValue} {x : BitVec w} {y : BitVec v} (ha : Denotes a x)
    (hb : Denotes b y) (h0 : w = 0 ∨ v = 0) (h64 : w + v ≤ 64) : BitVecValue.concat m a b = panic .bounds := by
  unfold BitVecValue.concat
  rw [ha.width_eq, hb.width_eq, addC_ok (show _ < 4294967296 by omega), ok_bind]
  dsimp only [BITS]
  rw [if_pos h64]
  have hz : ∀ {v : BitVecValue}, v.words.length = 0 → sliceR v.words 0 1 = panic .bounds := fun h => by
    unfold sliceR; rw [if_neg (by omega)]
  have hs : ∀ {v : BitVecValue}, v.words.length = 1 → sliceR v.words 0 1 = ok v.words := fun h => sliceR_full h
  by_cases hwv : w + v = 0
  · have h1 : w = 0 := by omega
    have h2 : v = 0 := by omega
    subst h1 h2
    rfl
  · rw [modifyRange_full (by rw [length_zeros]; omega)]
    by_cases hw : w = 0
    · rw [hz (by rw [ha.length_eq]; omega)]; rfl
    · rw [hs (by rw [ha.length_eq]; omega), ok_bind, hz (by rw [hb.length_eq]; omega)]; rfl

/-- **C22, exact**: `zero_extend` (and `sign_extend`) of a value of width 0 panics if the result has at most 64 bits. -/
theorem C22_zero_width_panics (m : Mode) {a : BitVecValue} {x : BitVec 0} (ha : Denotes a x) {n : Nat} (h64 : n ≤ 64) :
    BitVecValue.zeroExtend m a n = panic .bounds ∧ BitVecValue.signExtend m a n = panic .bounds := by
  have hz : sliceR a.words 0 1 = panic .bounds := by
    unfold sliceR; rw [if_neg (by rw [ha.length_eq]; omega)]
  unfold BitVecValue.zeroExtend BitVecValue.signExtend
  have hc : addC m U32 0 n = ok n := by rw [addC_ok (show _ < 4294967296 by omega), Nat.zero_add]
  rw [ha.width_eq, hc]
  simp only [ok_bind, BITS, if_pos h64]
  by_cases hn : n = 0
  · subst hn; exact ⟨rfl, rfl⟩
  · have hl : (valueVecZeros n).length = 1 := by rw [length_zeros]; omega
    simp only [modifyRange_full hl, hz]
    exact ⟨rfl, rfl⟩

example : BitVecValue.concat .release (encode 5#8) (encode 0#0) = panic .bounds ∧
    BitVecValue.zeroExtend .release (encode 0#0) 64 = panic .bounds := by decide

/-! ## C32 -/

/-- **C32, exact**: in a debug build with at least `2^32 / 3` bits every call panics: the capacity hint overflows. -/
theorem C32_huge_width_debug_panics {w : Nat} {a : BitVecValue} {x : BitVec w} (ha : Denotes a x) (hw : 2 ^ 32 ≤ w * 3) :
    BitVecValue.toDecStr .debug a = panic .overflow := by
  unfold BitVecValue.toDecStr Strings.toDecStr
  rw [ha.width_eq]
  have : mulC .debug U32 w 3 = panic .overflow := by
    unfold mulC
    rw [if_neg (by show ¬ w * 3 < 4294967296; omega)]
  rw [this]
  rfl

/-! ## C33, C34 -/

/-- **C33, C34, width 1**: both functions give the empty string, for 0 and for −1. -/
theorem C33_width_one (m : Mode) {a : BitVecValue} {x : BitVec 1} (ha : Denotes a x) :
    BitVecValue.toBitStrSigned m a = ok [] ∧
    BitVecValue.toHexStrSigned m a = ok [] := by
  rw [ha.eq_encode]
  clear ha
  revert x
  cases m <;> decide +kernel

/-! ## C43 -/

/-- **C43, exact**: with a fraction width of 64 or more (and at most the width of the value) a debug build panics, except that
negative values wider than 64 bits give `None` without looking at the fraction width. -/
theorem C43_wide_fraction_debug {w : Nat} {a : BitVecValue} {x : BitVec w} {f : Nat} (ha : Denotes a x) (hf : f ≤ w)
    (hf64 : 64 ≤ f) :
    BitVecValue.toUnsignedFixedPoint .debug a f = panic .overflow ∧
    BitVecValue.toSignedFixedPoint .debug a f = if x.toInt < 0 ∧ 64 < w then ok none else panic .overflow := by
  have hu : ∀ {a : BitVecValue} {x : BitVec w}, Denotes a x →
      BitVecValue.toUnsignedFixedPoint .debug a f = panic .overflow := by
    intro a x ha
    unfold BitVecValue.toUnsignedFixedPoint
    rw [ha.width_eq, debugAssert_decide_of hf, ok_bind]
    have hs : shiftAmount64 .debug f = panic .overflow := by
      have : ¬ f < 64 := by omega
      simp [shiftAmount64, this]
    rw [hs]
    rfl
  refine ⟨hu ha, ?_⟩
  obtain ⟨h1, h2⟩ := C25_is_negative .debug (by omega) ha
  unfold BitVecValue.toSignedFixedPoint
  rw [ha.width_eq, debugAssert_decide_of hf, ok_bind, h1, ok_bind]
  by_cases hn : x.msb = true
  · have hneg : x.toInt < 0 := h2.mp hn
    rw [if_pos hn]
    by_cases hw : 64 < w
    · rw [if_pos hw, if_pos ⟨hneg, hw⟩]
    · obtain ⟨r, h3, h4⟩ := C08_negate .debug (by omega) ha
      rw [if_neg hw, h3, ok_bind, hu h4, if_neg (by omega)]
      rfl
  · have hneg : ¬ x.toInt < 0 := fun h => hn (h2.mpr h)
    rw [if_neg hn, hu ha, if_neg (by omega)]

/-- **C43, exact**: release builds, for all fraction widths. The denominator is `2^(f mod 64)`. -/
theorem C43_release_exact {w : Nat} {a : BitVecValue} {x : BitVec w} (f : Nat) (ha : Denotes a x) :
    BitVecValue.toUnsignedFixedPoint .release a f =
      ok (if x.toNat < 2 ^ 64 then some ⟨false, x.toNat, 2 ^ (f % 64)⟩ else none) ∧
    (0 < w → BitVecValue.toSignedFixedPoint .release a f =
      ok (if x.toInt < 0 then (if 64 < w then none else some ⟨true, (-x).toNat, 2 ^ (f % 64)⟩)
        else if x.toNat < 2 ^ 64 then some ⟨false, x.toNat, 2 ^ (f % 64)⟩ else none)) := by
  have hs : shiftAmount64 .release f = ok (f % 64) := by
    unfold shiftAmount64
    by_cases h : f < 64
    · rw [if_pos h, Nat.mod_eq_of_lt h]
    · rw [if_neg h]
  have hu : ∀ {a : BitVecValue} {x : BitVec w}, Denotes a x → BitVecValue.toUnsignedFixedPoint .release a f =
      ok (if x.toNat < 2 ^ 64 then some ⟨false, x.toNat, 2 ^ (f % 64)⟩ else none) := by
    intro a x ha
    unfold BitVecValue.toUnsignedFixedPoint
    rw [hs, C03_to_u64 ha]
    by_cases h : x.toNat < 2 ^ 64
    · rw [if_pos h, if_pos h]
      show ok (some (⟨false, _, _⟩ : Fraction)) = _
      rw [BitVec.toNat_ofNat, Nat.mod_eq_of_lt h]
    · rw [if_neg h, if_neg h]
      rfl
  refine ⟨hu ha, fun h0 => ?_⟩
  obtain ⟨h1, h2⟩ := C25_is_negative .release h0 ha
  unfold BitVecValue.toSignedFixedPoint
  rw [ha.width_eq, show debugAssert .release (decide (f ≤ w)) = ok () from rfl, ok_bind, h1, ok_bind]
  by_cases hn : x.msb = true
  · rw [if_pos hn, if_pos (h2.mp hn)]
    by_cases hw : 64 < w
    · rw [if_pos hw, if_pos hw]
    · obtain ⟨r, h3, h4⟩ := C08_negate .release h0 ha
      have hlt : (-x).toNat < 2 ^ 64 := Nat.lt_of_lt_of_le (-x).isLt (Nat.pow_le_pow_right (by decide) (by omega))
      rw [if_neg hw, if_neg hw, h3, ok_bind, hu h4, if_pos hlt]
      rfl
  · rw [if_neg hn, hu ha, if_neg (fun h => hn (h2.mpr h))]

example : BitVecValue.toSignedFixedPoint .debug (encode (-1#65)) 64 = ok none ∧
    BitVecValue.toSignedFixedPoint .debug (encode 1#65) 64 = panic .overflow ∧
    BitVecValue.toSignedFixedPoint .release (encode (-3#64)) 65 = ok (some ⟨true, 3, 2⟩) := by decide

/-! ## C26 -/

/-- **C26, exact**: assigning an integer to a destination with any previous contents has the same outcome, panics included, as
constructing a value of the same width from it. -/
theorem C26_assign_constructs (m : Mode) {w : Nat} (hw : 0 < w) {s : BitVecValue} (hs : Slot s w) (v : Word) :
    BitVecValue.assignFromU64 m s v = BitVecValue.fromU64 m v w ∧
    BitVecValue.assignFromI64 m s v = BitVecValue.fromI64 m v w := by
  have hz : Slot (BitVecValue.zero w) w := zero_slot hs.width_lt
  obtain ⟨a, ha, ha'⟩ := assignFromU64_eq m hw hs v
  obtain ⟨b, hb, hb'⟩ := assignFromU64_eq m hw hz v
  obtain ⟨c, hc, hc'⟩ := assignFromI64_eq m hw hs v
  obtain ⟨d, hd, hd'⟩ := assignFromI64_eq m hw hz v
  refine ⟨?_, ?_⟩
  · rw [BitVecValue.fromU64, ha, hb, ha'.repr_unique hb']
  · rw [BitVecValue.fromI64, hc, hd, hc'.repr_unique hd']

/-- A destination with garbage in the unused bits, for a value that does not fit: 17 wraps in a release build and panics in a debug
build. -/
example : Slot ⟨4, [BitVec.allOnes 64]⟩ 4 ∧
    BitVecValue.assignFromU64 .release ⟨4, [BitVec.allOnes 64]⟩ 17#64 = ok (encode 1#4) ∧
    Panics (BitVecValue.assignFromU64 .debug ⟨4, [BitVec.allOnes 64]⟩ 17#64) :=
  ⟨⟨by decide, rfl, rfl⟩, by decide, ⟨.debugAssert, by decide⟩⟩

end Baa
