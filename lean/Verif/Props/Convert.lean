import Verif.Props.Compare
import Verif.Spec.Expressions

/-!
# C01 – C05, C25, C26: constructors, machine integers, predicates, in-place assignment

An `i64` is given by its 64-bit two's complement pattern `v : Word`; its integer value is `v.toInt`.
-/

namespace Baa
open Res BitVecValue

theorem Denotes.slot {v : BitVecValue} {w : Nat} {x : BitVec w} (h : Denotes v x) : Slot v w :=
  ⟨h.width_lt, h.width_eq, h.length_eq⟩

theorem zero_slot {w : Nat} (hw : w < 2 ^ 32) : Slot (BitVecValue.zero w) w := ⟨hw, rfl, length_valueVecZeros w⟩

/-! ## C26 assignment -/

/-- **C26** `assign`: the destination becomes exactly the source. -/
theorem C26_assign (m : Mode) {w : Nat} {s a : BitVecValue} {x : BitVec w} (hs : Slot s w) (ha : Denotes a x) :
    BitVecValue.assign m s a = ok a := by
  unfold BitVecValue.assign
  have hw : s.width = a.width := by rw [hs.width_eq, ha.width_eq]
  have hl : s.words.length = a.words.length := by rw [hs.length_eq, ha.length_eq]
  rw [debugAssert_of (by simp [hw]), ok_bind, debugAssert_of (by simp [hl]), ok_bind, if_pos hl, hw]

/-- **C26** `clear`. -/
theorem C26_clear {w : Nat} {s : BitVecValue} (hs : Slot s w) : Denotes (BitVecValue.clear s) (0#w) := by
  have e : (BitVecValue.clear s).words = List.replicate s.words.length 0#64 := Arith.clear_eq _
  exact ⟨hs.width_lt, hs.width_eq, by rw [e, List.length_replicate, hs.length_eq],
    by rw [e, wordsVal_replicate_zero]; simp⟩

/-- **C26** `assign_ones`. -/
theorem C26_assign_ones (m : Mode) {w : Nat} (hw : 0 < w) {s : BitVecValue} (hs : Slot s w) :
    ∃ r, BitVecValue.assignOnes m s = ok r ∧ Denotes r (BitVec.allOnes w) := by
  have e : (s.words.map fun _ => BitVec.allOnes 64) = List.replicate s.words.length (BitVec.allOnes 64) := Arith.set_eq _
  obtain ⟨r, h1, h2, h3⟩ := Arith.maskMsb_bit (m := m) (dst := List.replicate s.words.length (BitVec.allOnes 64))
    (width := w) (by rw [List.length_replicate, hs.length_eq]) hw
  refine ⟨{ s with words := r }, ?_, Denotes.of_bit hs.width_lt hs.width_eq ?_ fun i => ?_⟩
  · unfold BitVecValue.assignOnes BitVecValue.maskMsb
    rw [e, hs.width_eq, h1, ok_bind]
  · simp only [h2, List.length_replicate, hs.length_eq]
  · rw [h3, Arith.bit_replicate_ones, BitVec.getLsbD_allOnes, hs.length_eq]
    by_cases h : i < w
    · have : i < 64 * ((w + 63) / 64) := by omega
      rw [decide_eq_true h, decide_eq_true this]; rfl
    · rw [decide_eq_false h]; rfl

/-- `assign_from_u64` up to its final debug assertion. -/
theorem assignFromU64_eq (m : Mode) {w : Nat} (hw : 0 < w) {s : BitVecValue} (hs : Slot s w) (v : Word) :
    ∃ r, BitVecValue.assignFromU64 m s v = (debugAssert m (decide (v.toNat < 2 ^ w)) >>= fun _ => ok r) ∧
      Denotes r (BitVec.ofNat w v.toNat) := by
  have hlen : s.words.length = (w + 63) / 64 := hs.length_eq
  obtain ⟨n, hn⟩ : ∃ n, s.words.length = n + 1 := ⟨s.words.length - 1, by omega⟩
  have hv := v.isLt
  have e : (s.words.map fun _ => 0#64) = 0#64 :: List.replicate n 0#64 := by
    have := Arith.clear_eq s.words
    rw [Arith.clear] at this
    rw [this, hn, List.replicate_succ]
  obtain ⟨r, h1, h2, h3⟩ := Arith.maskMsb_spec (m := m) (dst := v :: List.replicate n 0#64) (width := w)
    (by simp; omega) hw
  have hval : wordsVal r = v.toNat % 2 ^ w := by
    rw [h3, wordsVal_cons, wordsVal_replicate_zero]; simp
  cases r with
  | nil => simp at h2
  | cons r0 rs =>
    have hr0 : r0.toNat = v.toNat % 2 ^ w := by
      rw [wordsVal_cons] at hval
      have := Nat.mod_le v.toNat (2 ^ w)
      have := r0.isLt
      have : wordsVal rs = 0 := by
        by_cases h : wordsVal rs = 0
        · exact h
        · have : 1 ≤ wordsVal rs := by omega
          omega
      rw [this] at hval
      omega
    have hcheck : (r0 == v) = decide (v.toNat < 2 ^ w) := by
      by_cases h : v.toNat < 2 ^ w
      · rw [Nat.mod_eq_of_lt h] at hr0
        have : r0 = v := BitVec.eq_of_toNat_eq hr0
        simp [h, this]
      · have : r0 ≠ v := fun e => by
          rw [e] at hr0
          have := Nat.mod_lt v.toNat (Nat.two_pow_pos w)
          omega
        simp [h, this]
    refine ⟨{ s with words := r0 :: rs }, ?_, hs.width_lt, hs.width_eq, ?_, ?_⟩
    · unfold BitVecValue.assignFromU64 BitVecValue.maskMsb BitVecValue.clear
      simp only [e]
      rw [setIdx_ok (by simp), ok_bind]
      simp only [List.set_cons_zero, hs.width_eq, h1, ok_bind, idx, List.getElem?_cons_zero, hcheck]
    · rw [h2]; simp; omega
    · rw [hval, BitVec.toNat_ofNat]

/-- **C26** `assign_from_u64`: for a fitting value the destination becomes that value. -/
theorem C26_assign_from_u64 (m : Mode) {w : Nat} (hw : 0 < w) {s : BitVecValue} (hs : Slot s w) (v : Word)
    (hv : v.toNat < 2 ^ w) :
    ∃ r, BitVecValue.assignFromU64 m s v = ok r ∧ Denotes r (BitVec.ofNat w v.toNat) := by
  obtain ⟨r, h1, h2⟩ := assignFromU64_eq m hw hs v
  exact ⟨r, by rw [h1, debugAssert_decide_of hv, ok_bind], h2⟩

/-! ### signed -/

theorem bits_of_single {v : Word} {n i : Nat} : bit (v :: List.replicate n 0#64) i = v.getLsbD i := by
  rw [bit_cons]
  by_cases h : i < 64
  · rw [if_pos h]
  · rw [if_neg h, bit_replicate_zero, BitVec.getLsbD_of_ge _ _ (by omega)]

/-- The words written by `assign_from_i64`, before its debug check. -/
theorem assignFromI64_words (m : Mode) {w : Nat} (hw : 0 < w) {s : BitVecValue} (hs : Slot s w) (v : Word) :
    ∃ r, BitVecValue.assignFromI64 m s v = (BitVecValue.checkI64 m r v >>= fun _ => ok r) ∧
      Denotes r (v.signExtend w) := by
  have hlen : s.words.length = (w + 63) / 64 := hs.length_eq
  have e : (s.words.map fun _ => 0#64) = List.replicate s.words.length 0#64 := Arith.clear_eq s.words
  by_cases h1 : s.words.length = 1
  · have hw64 : w ≤ 64 := by omega
    obtain ⟨mk, hm1, hm2, hm3⟩ := Arith.mask_spec hw hw64
    refine ⟨{ s with words := [v &&& mk] }, ?_, Denotes.of_bit hs.width_lt hs.width_eq (by simp; omega) fun i => ?_⟩
    · unfold BitVecValue.assignFromI64 BitVecValue.clear
      simp only [e, h1, List.replicate_one, List.length_singleton, if_true, hs.width_eq, hm1, ok_bind, setIdx,
        Nat.lt_one_iff, List.set_cons_zero]
    · have := bits_of_single (v := v &&& mk) (n := 0) (i := i)
      rw [List.replicate_zero] at this
      simp only [this, BitVec.getLsbD_and, hm3, BitVec.getLsbD_signExtend]
      by_cases hi : i < w
      · have : i < 64 := by omega
        simp only [hi, this, decide_true, Bool.and_true, Bool.true_and, if_true]
      · simp [hi]
  · have hw64 : 64 < w := by omega
    obtain ⟨r, hr1, hr2, hr3⟩ := Arith.signExtend_spec (m := m) (d := List.replicate s.words.length 0#64) (src := [v])
      (sw := 64) (dw := w) (by omega) (by omega) (by simp) (by simp [hlen])
      (by rw [Arith.wordsVal_singleton]; exact v.isLt)
    refine ⟨{ s with words := r }, ?_, Denotes.of_bit hs.width_lt hs.width_eq ?_ fun i => ?_⟩
    · unfold BitVecValue.assignFromI64 BitVecValue.clear
      simp only [e, List.length_replicate, h1, if_false, hs.width_eq, hr1, ok_bind]
    · simp only [hr2, List.length_replicate, hlen]
    · have hb : ∀ j, bit [v] j = v.getLsbD j := fun j => bits_of_single (n := 0)
      rw [hr3, hb, hb, BitVec.getLsbD_signExtend, BitVec.msb_eq_getLsbD_last]

theorem two_pow_pred {w : Nat} (hw : 0 < w) : (2 : Int) ^ w = 2 * 2 ^ (w - 1) := by
  obtain ⟨k, rfl⟩ : ∃ k, w = k + 1 := ⟨w - 1, by omega⟩
  rw [Nat.add_sub_cancel, Int.pow_succ, Int.mul_comm]

theorem fitsSigned_toInt {w : Nat} (hw : 0 < w) (x : BitVec w) : FitsSigned x.toInt w := by
  have h1 := BitVec.le_two_mul_toInt (x := x)
  have h2 := BitVec.two_mul_toInt_lt (x := x)
  have h3 := two_pow_pred hw
  have h4 : ((2 ^ w : Nat) : Int) = (2 : Int) ^ w := by norm_cast
  constructor <;> omega

theorem toInt_ofInt_of_fits {w : Nat} (hw : 0 < w) {z : Int} (h : FitsSigned z w) : (BitVec.ofInt w z).toInt = z := by
  rw [BitVec.toInt_ofInt]
  have h3 := two_pow_pred hw
  have h4 : ((2 ^ w : Nat) : Int) = (2 : Int) ^ w := by norm_cast
  have ⟨h1, h2⟩ := h
  apply Int.bmod_eq_of_le <;> omega

theorem fitsSigned_iff_roundtrip {w : Nat} (hw : 0 < w) (hw64 : w ≤ 64) (v : Word) :
    FitsSigned v.toInt w ↔ (v.signExtend w).signExtend 64 = v := by
  constructor
  · intro h
    apply BitVec.eq_of_toInt_eq
    rw [BitVec.toInt_signExtend_of_le hw64, BitVec.signExtend, toInt_ofInt_of_fits hw h]
  · intro h
    have h1 := fitsSigned_toInt hw (v.signExtend w)
    have h2 : ((v.signExtend w).signExtend 64).toInt = (v.signExtend w).toInt := BitVec.toInt_signExtend_of_le hw64
    rw [h] at h2
    rw [h2]; exact h1

theorem fitsSigned_of_ge (v : Word) {w : Nat} (hw : 64 ≤ w) : FitsSigned v.toInt w := by
  have h1 := fitsSigned_toInt (w := 64) (by decide) v
  have h2 : (2 : Nat) ^ 63 ≤ 2 ^ (w - 1) := Nat.pow_le_pow_right (by decide) (by omega)
  have h3 : ((2 ^ (w - 1) : Nat) : Int) = (2 : Int) ^ (w - 1) := by norm_cast
  unfold FitsSigned at *
  constructor <;> omega

/-- The debug check at the end of `assign_from_i64` accepts exactly the representable values. -/
theorem checkI64_spec {w : Nat} (hw : 0 < w) {r : BitVecValue} {v : Word} (hr : Denotes r (v.signExtend w)) :
    BitVecValue.checkI64 .debug r v = debugAssert .debug (decide (FitsSigned v.toInt w)) := by
  have hlen := hr.length_eq
  obtain ⟨r0, rs, hr0⟩ : ∃ r0 rs, r.words = r0 :: rs := by
    cases h : r.words with
    | nil => rw [h] at hlen; simp at hlen; omega
    | cons a b => exact ⟨a, b, rfl⟩
  have hb0 : ∀ i, i < 64 → r0.getLsbD i = (v.signExtend w).getLsbD i := fun i hi => by
    rw [← hr.bit, hr0, bit_cons, if_pos hi]
  have hneg : BitVecValue.isNegative .debug r = ok ((v.signExtend w).getLsbD (w - 1)) := by
    unfold BitVecValue.isNegative
    rw [hr.width_eq, Arith.isNeg_spec hw hlen, hr.bit]
  unfold BitVecValue.checkI64
  simp only [hneg, ok_bind, hr.width_eq, hr0, idx, List.getElem?_cons_zero, BITS]
  by_cases h64 : w < 64
  · rw [decide_eq_decide.mpr (fitsSigned_iff_roundtrip hw (by omega) v)]
    have hmsb : (v.signExtend w).msb = (v.signExtend w).getLsbD (w - 1) := BitVec.msb_eq_getLsbD_last _
    by_cases hn : (v.signExtend w).getLsbD (w - 1) = true
    · obtain ⟨mk, hm1, _, hm3⟩ := Arith.mask_spec (k := 64 - w) (by omega) (by omega)
      rw [if_pos hn, if_pos h64, hm1, ok_bind]
      have e : r0 ||| mk <<< w = (v.signExtend w).signExtend 64 := by
        apply BitVec.eq_of_getLsbD_eq
        intro i hi
        rw [BitVec.getLsbD_or, BitVec.getLsbD_shiftLeft, hm3, hb0 i hi,
          BitVec.getLsbD_signExtend (x := v.signExtend w) (v := 64), hmsb, hn, decide_eq_true hi]
        by_cases h : i < w
        · rw [if_pos h, decide_eq_true h]; simp
        · have : i - w < 64 - w := by omega
          rw [if_neg h, decide_eq_false h, decide_eq_true this]; simp
      rw [e]
      congr 1
    · have hn' : (v.signExtend w).getLsbD (w - 1) = false := by simpa using hn
      rw [if_neg hn]
      have e : r0 = (v.signExtend w).signExtend 64 := by
        apply BitVec.eq_of_getLsbD_eq
        intro i hi
        rw [hb0 i hi, BitVec.getLsbD_signExtend (x := v.signExtend w) (v := 64), hmsb, hn', decide_eq_true hi]
        by_cases h : i < w
        · rw [if_pos h, Bool.true_and]
        · rw [if_neg h, BitVec.getLsbD_of_ge _ _ (by omega)]; rfl
      rw [e]
      congr 1
  · rw [decide_eq_true (fitsSigned_of_ge v (by omega))]
    have e : r0 = v := by
      apply BitVec.eq_of_getLsbD_eq
      intro i hi
      have : i < w := by omega
      rw [hb0 i hi, BitVec.getLsbD_signExtend, decide_eq_true this, if_pos hi, Bool.true_and]
    subst e
    split <;> simp

theorem assignFromI64_eq (m : Mode) {w : Nat} (hw : 0 < w) {s : BitVecValue} (hs : Slot s w) (v : Word) :
    ∃ r, BitVecValue.assignFromI64 m s v = (debugAssert m (decide (FitsSigned v.toInt w)) >>= fun _ => ok r) ∧
      Denotes r (BitVec.ofInt w v.toInt) := by
  obtain ⟨r, h1, h2⟩ := assignFromI64_words m hw hs v
  refine ⟨r, ?_, h2⟩
  rw [h1]
  cases m with
  | debug => rw [checkI64_spec hw h2]
  | release => rfl

/-- **C26** `assign_from_i64`: for a representable value the destination becomes that value. -/
theorem C26_assign_from_i64 (m : Mode) {w : Nat} (hw : 0 < w) {s : BitVecValue} (hs : Slot s w) (v : Word)
    (hv : FitsSigned v.toInt w) :
    ∃ r, BitVecValue.assignFromI64 m s v = ok r ∧ Denotes r (BitVec.ofInt w v.toInt) := by
  obtain ⟨r, h1, h2⟩ := assignFromI64_eq m hw hs v
  exact ⟨r, by rw [h1, debugAssert_decide_of hv, ok_bind], h2⟩

/-- Non-vacuity of the C26 family: a destination full of garbage (even in the unused bits). -/
example : ∃ s : BitVecValue, Slot s 70 ∧ s.words = [7#64, BitVec.allOnes 64] ∧
    BitVecValue.assignFromI64 .debug s (-2#64) = ok (encode (-2#70)) ∧
    BitVecValue.assignFromU64 .debug s 2#64 = ok (encode 2#70) ∧
    BitVecValue.assign .debug s (encode 9#70) = ok (encode 9#70) :=
  ⟨⟨70, [7#64, BitVec.allOnes 64]⟩, ⟨by decide, rfl, rfl⟩, rfl, by decide, by decide, by decide⟩

/-! ## C01 constructors -/

/-- **C01** `zero` (any width). -/
theorem C01_zero {w : Nat} (hw : w < 2 ^ 32) : Denotes (BitVecValue.zero w) (0#w) :=
  ⟨hw, rfl, length_valueVecZeros w, by simp [BitVecValue.zero, valueVecZeros, wordsVal_replicate_zero]⟩

/-- **C01** `ones`. -/
theorem C01_ones (m : Mode) {w : Nat} (h0 : 0 < w) (hw : w < 2 ^ 32) :
    ∃ r, BitVecValue.ones m w = ok r ∧ Denotes r (BitVec.allOnes w) := C26_assign_ones m h0 (zero_slot hw)

/-- **C01** `from_u64`, fitting value, both builds. -/
theorem C01_from_u64 (m : Mode) {w : Nat} (h0 : 0 < w) (hw : w < 2 ^ 32) (v : Word) (hv : v.toNat < 2 ^ w) :
    ∃ r, BitVecValue.fromU64 m v w = ok r ∧ Denotes r (BitVec.ofNat w v.toNat) :=
  C26_assign_from_u64 m h0 (zero_slot hw) v hv

/-- **C01** `from_u64`, release build, any value: `v mod 2^w`. -/
theorem C01_from_u64_release {w : Nat} (h0 : 0 < w) (hw : w < 2 ^ 32) (v : Word) :
    ∃ r, BitVecValue.fromU64 .release v w = ok r ∧ Denotes r (BitVec.ofNat w v.toNat) ∧
      wordsVal r.words = v.toNat % 2 ^ w := by
  obtain ⟨r, h1, h2⟩ := assignFromU64_eq .release h0 (zero_slot hw) v
  exact ⟨r, h1, h2, by rw [h2.val_eq, BitVec.toNat_ofNat]⟩

/-- **C01** `from_u64`, debug build, value that does not fit: panics. -/
theorem C01_from_u64_debug_rejects {w : Nat} (h0 : 0 < w) (hw : w < 2 ^ 32) (v : Word) (hv : ¬ v.toNat < 2 ^ w) :
    Panics (BitVecValue.fromU64 .debug v w) := by
  obtain ⟨r, h1, _⟩ := assignFromU64_eq .debug h0 (zero_slot hw) v
  refine ⟨.debugAssert, ?_⟩
  rw [BitVecValue.fromU64, h1, decide_eq_false hv]; rfl

/-- **C01** `from_bool`, `tru`, `fals`. -/
theorem C01_from_bool (m : Mode) (b : Bool) :
    ∃ r, BitVecValue.fromBool m b = ok r ∧ Denotes r (BitVec.ofBool b) := by
  cases b with
  | true => exact C01_from_u64 m (w := 1) (by decide) (by decide) 1#64 (by decide)
  | false => exact C01_from_u64 m (w := 1) (by decide) (by decide) 0#64 (by decide)

example : BitVecValue.ones .debug 70 = ok ⟨70, [BitVec.allOnes 64, 63#64]⟩ ∧
    BitVecValue.fromU64 .release 300#64 8 = ok ⟨8, [44#64]⟩ ∧ Panics (BitVecValue.fromU64 .debug 300#64 8) :=
  ⟨by decide, by decide, ⟨.debugAssert, by decide⟩⟩

/-! ## C02 from_i64 -/

/-- **C02** release build, any value. -/
theorem C02_from_i64_release {w : Nat} (h0 : 0 < w) (hw : w < 2 ^ 32) (v : Word) :
    ∃ r, BitVecValue.fromI64 .release v w = ok r ∧ Denotes r (BitVec.ofInt w v.toInt) :=
  let ⟨r, h1, h2⟩ := assignFromI64_eq .release h0 (zero_slot hw) v
  ⟨r, h1, h2⟩

/-- **C02** both builds, representable value. -/
theorem C02_from_i64 (m : Mode) {w : Nat} (h0 : 0 < w) (hw : w < 2 ^ 32) (v : Word)
    (hv : -(2 ^ (w - 1) : Int) ≤ v.toInt ∧ v.toInt < 2 ^ (w - 1)) :
    ∃ r z, BitVecValue.fromI64 m v w = ok r ∧ Denotes r (z : BitVec w) ∧ z.toInt = v.toInt := by
  obtain ⟨r, h1, h2⟩ := C26_assign_from_i64 m h0 (zero_slot hw) v hv
  exact ⟨r, _, h1, h2, toInt_ofInt_of_fits h0 hv⟩

/-- **C02** debug build, value that is not representable: panics. -/
theorem C02_from_i64_debug_rejects {w : Nat} (h0 : 0 < w) (hw : w < 2 ^ 32) (v : Word)
    (hv : ¬ (-(2 ^ (w - 1) : Int) ≤ v.toInt ∧ v.toInt < 2 ^ (w - 1))) :
    Panics (BitVecValue.fromI64 .debug v w) := by
  obtain ⟨r, h1, _⟩ := assignFromI64_eq .debug h0 (zero_slot hw) v
  refine ⟨.debugAssert, ?_⟩
  have : ¬ FitsSigned v.toInt w := hv
  rw [BitVecValue.fromI64, h1, decide_eq_false this]; rfl

example : BitVecValue.fromI64 .debug (-8#64) 4 = ok ⟨4, [8#64]⟩ ∧ Panics (BitVecValue.fromI64 .debug (-9#64) 4) ∧
    BitVecValue.fromI64 .release (-9#64) 4 = ok ⟨4, [7#64]⟩ ∧
    BitVecValue.fromI64 .debug (-1#64) 100 = ok (encode (BitVec.allOnes 100)) :=
  ⟨by decide, ⟨.debugAssert, by decide⟩, by decide, by decide⟩

/-! ## C03 to_u64 -/

/-- **C03**: `to_u64` returns the value exactly when it is below `2^64` (any width). -/
theorem C03_to_u64 {w : Nat} {a : BitVecValue} {x : BitVec w} (ha : Denotes a x) :
    BitVecValue.toU64 a = if x.toNat < 2 ^ 64 then some (BitVec.ofNat 64 x.toNat) else none := by
  unfold BitVecValue.toU64
  rw [Arith.any_ne_zero_iff]
  have hval := ha.val_eq
  cases h : a.words with
  | nil =>
    rw [h, wordsVal_nil] at hval
    simp [← hval]
  | cons w0 ws =>
    rw [h, wordsVal_cons] at hval
    have hw0 := w0.isLt
    simp only [List.drop_one, List.tail_cons, List.head?_cons, Option.getD_some, decide_eq_true_eq]
    by_cases h1 : wordsVal ws = 0
    · rw [h1] at hval
      rw [if_neg (by omega), if_pos (by omega)]
      congr 1
      apply BitVec.eq_of_toNat_eq
      rw [BitVec.toNat_ofNat, ← hval, Nat.mul_zero, Nat.add_zero, Nat.mod_eq_of_lt hw0]
    · rw [if_pos h1, if_neg (by omega)]

/-- The `Some` payload is the number itself. -/
theorem C03_to_u64_value {w : Nat} {a : BitVecValue} {x : BitVec w} (ha : Denotes a x) :
    (∀ v, BitVecValue.toU64 a = some v → v.toNat = x.toNat) ∧ (BitVecValue.toU64 a = none ↔ 2 ^ 64 ≤ x.toNat) := by
  rw [C03_to_u64 ha]
  by_cases h : x.toNat < 2 ^ 64
  · rw [if_pos h]
    refine ⟨fun v hv => ?_, by simp; omega⟩
    cases hv
    rw [BitVec.toNat_ofNat, Nat.mod_eq_of_lt h]
  · rw [if_neg h]
    exact ⟨fun v hv => (by cases hv), (by simp; omega)⟩

example : BitVecValue.toU64 (encode 77#100) = some 77#64 ∧ BitVecValue.toU64 (encode (BitVec.twoPow 100 64)) = none := by
  decide

/-! ## C04 to_i64 -/

/-- **C04, full statement** (false of the code, see `C04_refuted`). -/
def C04_statement : Prop :=
  ∀ (m : Mode) {w : Nat} {a : BitVecValue} {x : BitVec w}, Denotes a x →
    BitVecValue.toI64 m a =
      ok (if -(2 ^ 63 : Int) ≤ x.toInt ∧ x.toInt < 2 ^ 63 then some (BitVec.ofInt 64 x.toInt) else none)

theorem all_zero_iff (ws : List Word) : (ws.all fun w => w == 0#64) = decide (wordsVal ws = 0) := by
  have := Arith.any_ne_zero_iff ws
  have e : (ws.all fun w => w == 0#64) = !(ws.any fun w => w != 0#64) := by
    rw [List.not_any_eq_all_not]
    have : (fun w : Word => w == 0#64) = fun w => !(w != 0#64) := by
      funext w; simp [bne]
    rw [this]
  rw [e, this]
  by_cases h : wordsVal ws = 0 <;> simp [h]

theorem all_max_iff (ws : List Word) :
    (ws.all fun w => w == BitVec.allOnes 64) = decide (wordsVal ws + 1 = 2 ^ (64 * ws.length)) := by
  induction ws with
  | nil => rfl
  | cons w ws ih =>
    rw [List.all_cons, ih, wordsVal_cons, List.length_cons, two_pow_mul_succ]
    have h1 := w.isLt
    have h2 := wordsVal_lt ws
    generalize 2 ^ (64 * ws.length) = P at *
    by_cases hw : w = BitVec.allOnes 64
    · have : w.toNat = 2 ^ 64 - 1 := by rw [hw]; rfl
      rw [hw, beq_self_eq_true, Bool.true_and]
      apply decide_eq_decide.mpr
      have : (BitVec.allOnes 64).toNat = 2 ^ 64 - 1 := rfl
      omega
    · have h3 : w.toNat ≠ 2 ^ 64 - 1 := fun h => hw (BitVec.eq_of_toNat_eq h)
      have h4 : ¬ (w.toNat + 2 ^ 64 * wordsVal ws + 1 = 2 ^ 64 * P) := by omega
      rw [decide_eq_false h4]
      have : (w == BitVec.allOnes 64) = false := by simpa using hw
      rw [this, Bool.false_and]

theorem fitsSigned_mono {z : Int} {v w : Nat} (h : v ≤ w) (hz : FitsSigned z v) : FitsSigned z w := by
  have h2 : (2 : Nat) ^ (v - 1) ≤ 2 ^ (w - 1) := Nat.pow_le_pow_right (by decide) (by omega)
  have h3 : ((2 ^ (w - 1) : Nat) : Int) = (2 : Int) ^ (w - 1) := by norm_cast
  have h4 : ((2 ^ (v - 1) : Nat) : Int) = (2 : Int) ^ (v - 1) := by norm_cast
  unfold FitsSigned at *
  constructor <;> omega

/-- `to_i64` on values of at most 64 bits is sign extension. -/
theorem toI64_small (m : Mode) {w : Nat} (hw : w ≤ 64) {a : BitVecValue} {x : BitVec w} (ha : Denotes a x) :
    BitVecValue.toI64 m a = ok (some (x.signExtend 64)) := by
  unfold BitVecValue.toI64
  rw [ha.width_eq, if_pos hw]
  by_cases h0 : w = 0
  · subst h0
    rw [if_pos rfl, BitVec.eq_nil x]
    rfl
  · rw [if_neg h0]
    have hlen : a.words.length = 1 := by rw [ha.length_eq]; omega
    obtain ⟨w0, hw0⟩ := List.length_eq_one_iff.mp hlen
    have hb : ∀ i, i < 64 → w0.getLsbD i = x.getLsbD i := fun i hi => by
      rw [← ha.bit, hw0, bit_cons, if_pos hi]
    have hmsb : x.msb = x.getLsbD (w - 1) := BitVec.msb_eq_getLsbD_last _
    by_cases h64 : w = 64
    · rw [if_pos h64, hw0]
      simp only [idx, List.getElem?_cons_zero, ok_bind]
      congr 2
      apply BitVec.eq_of_getLsbD_eq
      intro i hi
      rw [hb i hi, BitVec.getLsbD_signExtend, if_pos (by omega), decide_eq_true hi, Bool.true_and]
    · rw [if_neg h64, debugAssert_of (by simp [hlen]), ok_bind, Arith.isNeg_spec (by omega) ha.length_eq, ok_bind, ha.bit]
      by_cases hn : x.getLsbD (w - 1) = true
      · obtain ⟨mk, hm1, _, hm3⟩ := Arith.mask_spec (k := 64 - w) (by omega) (by omega)
        rw [if_pos hn]
        simp only [BITS, hm1, hw0, idx, List.getElem?_cons_zero, ok_bind]
        congr 2
        apply BitVec.eq_of_getLsbD_eq
        intro i hi
        rw [BitVec.getLsbD_or, BitVec.getLsbD_shiftLeft, hm3, hb i hi, BitVec.getLsbD_signExtend, hmsb, hn,
          decide_eq_true hi]
        by_cases h : i < w
        · rw [if_pos h, decide_eq_true h]; simp
        · have : i - w < 64 - w := by omega
          rw [if_neg h, decide_eq_false h, decide_eq_true this]; simp
      · have hn' : x.getLsbD (w - 1) = false := by simpa using hn
        rw [if_neg hn, hw0]
        simp only [idx, List.getElem?_cons_zero, ok_bind]
        congr 2
        apply BitVec.eq_of_getLsbD_eq
        intro i hi
        rw [hb i hi, BitVec.getLsbD_signExtend, hmsb, hn', decide_eq_true hi]
        by_cases h : i < w
        · rw [if_pos h, Bool.true_and]
        · rw [if_neg h, BitVec.getLsbD_of_ge _ _ (by omega)]; rfl

theorem fits64_of_le {w : Nat} (hw : w ≤ 64) (x : BitVec w) : -(2 ^ 63 : Int) ≤ x.toInt ∧ x.toInt < 2 ^ 63 := by
  by_cases h0 : w = 0
  · subst h0
    rw [BitVec.eq_nil x]
    decide
  · exact fitsSigned_mono hw (fitsSigned_toInt (by omega) x)

theorem wordNeg_spec (m : Mode) (w0 : Word) : Arith.isNeg m [w0] 64 = ok (decide (2 ^ 63 ≤ w0.toNat)) := by
  rw [Arith.isNeg_spec (by decide) (by simp)]
  congr 1
  have : bit [w0] 63 = w0.msb := by
    rw [bit_cons, if_pos (by decide), BitVec.msb_eq_getLsbD_last]
  rw [show 64 - 1 = 63 from rfl, this, BitVec.msb_eq_decide]

/-- Exact behaviour of `to_i64` above 64 bits: non-negative values are handled correctly; a negative value is only
recognised if all upper words are all-ones, which is impossible unless the width is a multiple of 64. -/
theorem toI64_wide (m : Mode) {w : Nat} (hw : 64 < w) {a : BitVecValue} {x : BitVec w} (ha : Denotes a x) :
    BitVecValue.toI64 m a =
      ok (if (0 ≤ x.toInt ∧ x.toInt < 2 ^ 63) ∨ (w % 64 = 0 ∧ -(2 ^ 63 : Int) ≤ x.toInt ∧ x.toInt < 0)
        then some (BitVec.ofInt 64 x.toInt) else none) := by
  have hlen := ha.length_eq
  have hval := ha.val_eq
  have hx := x.isLt
  have hti := toInt_of_bit x
  have hmsb : x.getLsbD (w - 1) = decide (2 ^ (w - 1) ≤ x.toNat) := by
    rw [← BitVec.msb_eq_getLsbD_last, BitVec.msb_eq_decide]
  rw [hmsb] at hti
  obtain ⟨w0, ws, hws⟩ : ∃ w0 ws, a.words = w0 :: ws := by
    cases h : a.words with
    | nil => rw [h] at hlen; simp at hlen; omega
    | cons p q => exact ⟨p, q, rfl⟩
  rw [hws, List.length_cons] at hlen
  rw [hws, wordsVal_cons] at hval
  have hw0 := w0.isLt
  have hwsl := wordsVal_lt ws
  -- powers of two
  obtain ⟨k, hk⟩ : ∃ k, w = 65 + k := ⟨w - 65, by omega⟩
  have p1 : (2 : Nat) ^ w = 2 ^ 65 * 2 ^ k := by rw [hk, Nat.pow_add]
  have p2 : (2 : Nat) ^ (w - 1) = 2 ^ 64 * 2 ^ k := by
    rw [hk, show 65 + k - 1 = 64 + k by omega, Nat.pow_add]
  have p3 : (2 : Int) ^ w = ((2 ^ 65 * 2 ^ k : Nat) : Int) := by rw [← p1]; norm_cast
  have p4 : 64 * ws.length ≥ 1 + k := by omega
  have p5 : (2 : Nat) ^ (64 * ws.length) = 2 ^ (1 + k) * 2 ^ (64 * ws.length - (1 + k)) := by
    rw [← Nat.pow_add]; congr 1; omega
  have p6 : (2 : Nat) ^ (1 + k) = 2 * 2 ^ k := by rw [Nat.pow_add]
  have hK : 0 < 2 ^ k := Nat.two_pow_pos k
  rw [p1] at hx
  rw [p2, p3] at hti
  generalize hV : wordsVal ws = V at *
  have hVlt : V < 2 * 2 ^ k := by omega
  have hmul : w % 64 = 0 ↔ 2 ^ (64 * ws.length) = 2 * 2 ^ k := by
    rw [p5, p6]
    constructor
    · intro h
      have : 64 * ws.length - (1 + k) = 0 := by omega
      rw [this, Nat.pow_zero, Nat.mul_one]
    · intro h
      by_cases h' : 64 * ws.length - (1 + k) = 0
      · omega
      · exfalso
        have : 2 ^ 1 ≤ 2 ^ (64 * ws.length - (1 + k)) := Nat.pow_le_pow_right (by decide) (by omega)
        have := Nat.mul_le_mul_left (2 * 2 ^ k) this
        omega
  have hge : 2 * 2 ^ k ≤ 2 ^ (64 * ws.length) := by
    rw [p5, p6]; exact Nat.le_mul_of_pos_right _ (Nat.two_pow_pos _)
  -- evaluate the code
  unfold BitVecValue.toI64
  rw [ha.width_eq, if_neg (by omega)]
  simp only [hws, List.drop_one, List.tail_cons, idx, List.getElem?_cons_zero, ok_bind, all_zero_iff, all_max_iff, hV,
    BITS, wordNeg_spec]
  generalize 2 ^ (64 * ws.length) = P at *
  generalize hKK : 2 ^ k = K at *
  have cast1 : ((2 ^ 65 * K : Nat) : Int) = 2 ^ 65 * (K : Int) := by norm_cast
  rw [cast1] at hti
  by_cases hz : V = 0
  · -- upper words zero
    have h1 : ¬ (V + 1 = P) := by omega
    have h2 : ¬ (2 ^ 64 * K ≤ x.toNat) := by omega
    rw [decide_eq_false h2, if_neg (by simp)] at hti
    rw [decide_eq_true hz, decide_eq_false h1]
    by_cases hn : 2 ^ 63 ≤ w0.toNat
    · rw [decide_eq_true hn, if_neg (by omega)]
    · rw [decide_eq_false hn, if_pos (by omega)]
      simp only
      congr 2
      rw [hti, ← hval, hz]
      apply BitVec.eq_of_toNat_eq
      rw [BitVec.toNat_ofInt]
      omega
  · rw [decide_eq_false hz]
    by_cases hm : V + 1 = P
    · have hmod : w % 64 = 0 := hmul.mpr (by omega)
      have hP : P = 2 * K := hmul.mp hmod
      have h2 : 2 ^ 64 * K ≤ x.toNat := by omega
      rw [decide_eq_true h2, if_pos (by simp)] at hti
      rw [decide_eq_true hm]
      have hi : x.toInt = (w0.toNat : Int) - 2 ^ 64 := by rw [hti, ← hval]; omega
      by_cases hn : 2 ^ 63 ≤ w0.toNat
      · rw [decide_eq_true hn, if_pos (by omega)]
        simp only
        congr 2
        rw [hi]
        apply BitVec.eq_of_toNat_eq
        rw [BitVec.toNat_ofInt]
        omega
      · rw [decide_eq_false hn, if_neg (by omega)]
    · rw [decide_eq_false hm]
      have : ¬ ((0 ≤ x.toInt ∧ x.toInt < 2 ^ 63) ∨ (w % 64 = 0 ∧ -(2 ^ 63 : Int) ≤ x.toInt ∧ x.toInt < 0)) := by
        intro h
        by_cases h2 : 2 ^ 64 * K ≤ x.toNat
        · rw [decide_eq_true h2, if_pos (by simp)] at hti
          rcases h with h | ⟨h3, h4, _⟩
          · omega
          · have := hmul.mp h3
            omega
        · rw [decide_eq_false h2, if_neg (by simp)] at hti
          omega
      rw [if_neg this]

/-- **C04, proved part**: `to_i64` is exact for widths up to 64, for widths that are multiples of 64, and for all values
that are non-negative or below the `i64` range. Missing: negative values within the `i64` range whose width is above 64
and not a multiple of 64, for which the code returns `None`. -/
theorem C04_to_i64_partial (m : Mode) {w : Nat} {a : BitVecValue} {x : BitVec w} (ha : Denotes a x)
    (hok : w ≤ 64 ∨ w % 64 = 0 ∨ 0 ≤ x.toInt ∨ x.toInt < -(2 ^ 63 : Int)) :
    BitVecValue.toI64 m a =
      ok (if -(2 ^ 63 : Int) ≤ x.toInt ∧ x.toInt < 2 ^ 63 then some (BitVec.ofInt 64 x.toInt) else none) := by
  by_cases h : w ≤ 64
  · rw [toI64_small m h ha, if_pos (fits64_of_le h x)]; rfl
  · rw [toI64_wide m (by omega) ha]
    congr 1
    have : ((0 ≤ x.toInt ∧ x.toInt < 2 ^ 63) ∨ (w % 64 = 0 ∧ -(2 ^ 63 : Int) ≤ x.toInt ∧ x.toInt < 0)) ↔
        (-(2 ^ 63 : Int) ≤ x.toInt ∧ x.toInt < 2 ^ 63) := by omega
    simp only [this]

/-- **C04 is false of the code**: `-1` as a 65-bit value is not converted. -/
theorem C04_refuted : ¬ C04_statement := fun h => by
  have h1 := h .debug (encode_denotes (BitVec.allOnes 65) (by decide))
  have e : BitVecValue.toI64 .debug (encode (BitVec.allOnes 65)) = ok none := by decide
  rw [e] at h1
  revert h1
  decide

example : BitVecValue.toI64 .debug (encode (-5#12)) = ok (some (-5#64)) ∧
    BitVecValue.toI64 .debug (encode (-5#128)) = ok (some (-5#64)) ∧
    BitVecValue.toI64 .debug (encode 5#100) = ok (some 5#64) := by decide

/-! ## C05 round trips -/

/-- **C05** (unsigned). -/
theorem C05_u64_round_trip (m : Mode) {w : Nat} (h0 : 0 < w) (hw : w < 2 ^ 32) (v : Word) (hv : v.toNat < 2 ^ w) :
    ∃ r, BitVecValue.fromU64 m v w = ok r ∧ BitVecValue.toU64 r = some v := by
  obtain ⟨r, h1, h2⟩ := C01_from_u64 m h0 hw v hv
  refine ⟨r, h1, ?_⟩
  have e : (BitVec.ofNat w v.toNat).toNat = v.toNat := by rw [BitVec.toNat_ofNat, Nat.mod_eq_of_lt hv]
  rw [C03_to_u64 h2, e, if_pos v.isLt]
  congr 1
  apply BitVec.eq_of_toNat_eq
  rw [BitVec.toNat_ofNat, Nat.mod_eq_of_lt v.isLt]

/-- **C05, full statement for `i64`** (false of the code, see `C05_refuted`). -/
def C05_statement : Prop :=
  ∀ (m : Mode) {w : Nat}, 0 < w → w < 2 ^ 32 → ∀ v : Word, FitsSigned v.toInt w →
    ∃ r, BitVecValue.fromI64 m v w = ok r ∧ BitVecValue.toI64 m r = ok (some v)

/-- **C05, proved part for `i64`**: all widths up to 64 and multiples of 64, and non-negative numbers of any width.
Missing: negative numbers in widths above 64 that are not multiples of 64 (see C04). -/
theorem C05_i64_round_trip_partial (m : Mode) {w : Nat} (h0 : 0 < w) (hw : w < 2 ^ 32) (v : Word)
    (hv : FitsSigned v.toInt w) (hok : w ≤ 64 ∨ w % 64 = 0 ∨ 0 ≤ v.toInt) :
    ∃ r, BitVecValue.fromI64 m v w = ok r ∧ BitVecValue.toI64 m r = ok (some v) := by
  obtain ⟨r, z, h1, h2, h3⟩ := C02_from_i64 m h0 hw v hv
  refine ⟨r, h1, ?_⟩
  have h4 := fitsSigned_toInt (w := 64) (by decide) v
  rw [C04_to_i64_partial m h2 (by rw [h3]; omega), h3, if_pos (show _ ∧ _ from h4), BitVec.ofInt_toInt]

/-- **C05 is false of the code** for `-1` at width 65. -/
theorem C05_refuted : ¬ C05_statement := fun h => by
  obtain ⟨r, h1, h2⟩ := h .debug (w := 65) (by decide) (by decide) (-1#64) (by decide)
  have e : BitVecValue.fromI64 .debug (-1#64) 65 = ok (encode (BitVec.allOnes 65)) := by decide
  rw [e] at h1
  cases h1
  revert h2
  decide

/-! ## C25 predicates -/

/-- **C25** `is_zero` (any width). -/
theorem C25_is_zero {w : Nat} {a : BitVecValue} {x : BitVec w} (ha : Denotes a x) :
    BitVecValue.isZero a = decide (x = 0#w) := by
  unfold BitVecValue.isZero
  rw [all_zero_iff, ha.val_eq]
  apply decide_eq_decide.mpr
  rw [← BitVec.toNat_inj]
  simp

/-- **C25** `is_negative`. -/
theorem C25_is_negative (m : Mode) {w : Nat} (hw : 0 < w) {a : BitVecValue} {x : BitVec w} (ha : Denotes a x) :
    BitVecValue.isNegative m a = ok x.msb ∧ (x.msb = true ↔ x.toInt < 0) := by
  refine ⟨?_, ?_⟩
  · unfold BitVecValue.isNegative
    rw [ha.width_eq, Arith.isNeg_spec hw ha.length_eq, ha.bit, BitVec.msb_eq_getLsbD_last]
  · rw [BitVec.msb_eq_toInt]; simp

theorem one_bit_word {a : BitVecValue} {x : BitVec 1} (ha : Denotes a x) :
    ∃ w0, a.words = [w0] ∧ w0.toNat = x.toNat := by
  obtain ⟨w0, hw0⟩ := List.length_eq_one_iff.mp (show a.words.length = 1 by rw [ha.length_eq])
  have := ha.val_eq
  rw [hw0, Arith.wordsVal_singleton] at this
  exact ⟨w0, hw0, this⟩

/-- **C25** `is_tru`: exactly the 1-bit value 1. -/
theorem C25_is_tru {w : Nat} {a : BitVecValue} {x : BitVec w} (ha : Denotes a x) :
    BitVecValue.isTru a = ok (decide (w = 1 ∧ x.toNat = 1)) := by
  unfold BitVecValue.isTru
  rw [ha.width_eq]
  by_cases h : w = 1
  · subst h
    obtain ⟨w0, h1, h2⟩ := one_bit_word ha
    rw [if_pos rfl, h1, ← h2]
    simp only [idx, List.getElem?_cons_zero, ok_bind, true_and]
    congr 1
    rw [Bool.eq_iff_iff]
    simp [← BitVec.toNat_inj]
  · simp [h]

/-- **C25** `is_fals`: exactly the 1-bit value 0. -/
theorem C25_is_fals {w : Nat} {a : BitVecValue} {x : BitVec w} (ha : Denotes a x) :
    BitVecValue.isFals a = ok (decide (w = 1 ∧ x.toNat = 0)) := by
  unfold BitVecValue.isFals
  rw [ha.width_eq]
  by_cases h : w = 1
  · subst h
    obtain ⟨w0, h1, h2⟩ := one_bit_word ha
    rw [if_pos rfl, h1, ← h2]
    simp only [idx, List.getElem?_cons_zero, ok_bind, true_and]
    congr 1
    rw [Bool.eq_iff_iff]
    simp [← BitVec.toNat_inj]
  · simp [h]

/-- **C25** `to_bool`: the bit of a 1-bit value, `None` for any other width. -/
theorem C25_to_bool {w : Nat} {a : BitVecValue} {x : BitVec w} (ha : Denotes a x) :
    BitVecValue.toBool a = ok (if w = 1 then some (x.getLsbD 0) else none) := by
  unfold BitVecValue.toBool
  rw [ha.width_eq]
  by_cases h : w = 1
  · subst h
    obtain ⟨w0, h1, h2⟩ := one_bit_word ha
    rw [if_pos rfl, if_pos rfl, h1]
    simp only [idx, List.getElem?_cons_zero, ok_bind, Arith.wordToBool]
    congr 2
    have := Arith.and_one_beq w0 0
    rw [BitVec.ushiftRight_zero] at this
    rw [this, ← BitVec.testBit_toNat, ← BitVec.testBit_toNat, h2]
  · rw [if_neg h, if_neg h]

example : BitVecValue.isZero (encode 0#100) = true ∧ BitVecValue.isNegative .debug (encode (-1#100)) = ok true ∧
    BitVecValue.isTru (encode 1#1) = ok true ∧ BitVecValue.isTru (encode 1#2) = ok false ∧
    BitVecValue.toBool (encode 1#1) = ok (some true) := by decide

end Baa
