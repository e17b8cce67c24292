import Verif.Props.Exact

/-!
# C82: values of zero bits

`BitVecValue::from(&BigUint::from(0))`, `zero(0)`, `from_bytes_le(&[], 0)` and `from_bit_str("")` return a value of zero bits.
-/

namespace Baa
open Res BitVecValue

/-- There is exactly one value of zero bits. -/
theorem Denotes.nil {a : BitVecValue} {x : BitVec 0} (h : Denotes a x) : a = ⟨0, []⟩ := by
  rw [h.eq_encode]
  rfl

/-- What one would expect of 0-bit values: the operations return the only possible result. -/
def C82_statement : Prop :=
  ∀ (m : Mode) (a b : BitVecValue) (x y : BitVec 0), Denotes a x → Denotes b y →
    (∀ f ∈ [add m, sub m, mul m, and m, or m, xor m, shiftLeft m, shiftRight m, arithmeticShiftRight m],
      ∃ r, f a b = ok r ∧ Denotes r x) ∧
    (∀ f ∈ [not m, negate m], ∃ r, f a = ok r ∧ Denotes r x) ∧
    (∀ f ∈ [isEqual m, isGreaterOrEqual m, isLessOrEqual m, isGreaterOrEqualSigned m, isLessOrEqualSigned m, eqOwned m, eqRef m],
      f a b = ok true) ∧
    (∀ f ∈ [isNotEqual m, isGreater m, isLess m, isGreaterSigned m, isLessSigned m], f a b = ok false) ∧
    isNegative m a = ok false

/-- Where 0-bit values come from. -/
theorem C82_sources (m : Mode) : ofBigUint m 0 = ok (zero 0) ∧ fromBytesLe m [] 0 = ok (zero 0) ∧
    fromBitStr m [] = ok (.ok (zero 0)) ∧ fromHexStr m [] = ok (.ok (zero 0)) ∧ Denotes (zero 0) 0#0 := by
  refine ⟨?_, ?_, ?_, ?_, encode_denotes (0#0) (by decide)⟩ <;> cases m <;> first | rfl | decide +kernel

/-- **C82 (partial)** The operations that handle 0-bit values as expected. Missing: those of `C82_panics` and
`C82_comparison_wrong`. -/
theorem C82_supported_partial (m : Mode) {a b : BitVecValue} {x y : BitVec 0} (ha : Denotes a x) (hb : Denotes b y) :
    (∀ f ∈ [and m, or m, xor m, assign m], f a b = ok a) ∧
    (∀ f ∈ [isEqual m, eqOwned m, eqRef m], f a b = ok true) ∧
    (∀ f ∈ [isNotEqual m, isGreater m, isLess m], f a b = ok false) ∧
    a.clear = a ∧ a.isZero = true ∧ a.toU64 = some 0#64 ∧ a.toI64 m = ok (some 0#64) ∧ a.toBool = ok none ∧
    a.isTru = ok false ∧ a.isFals = ok false ∧ a.toBigUint = 0 ∧ a.toBigInt m = ok 0 ∧ a.toBytesLe = [] ∧
    a.toBitStr = ok [] ∧ a.toHexStr m = ok [] ∧ a.toDecStr m = ok [ch '0'] ∧
    a.toUnsignedFixedPoint m 0 = ok (some ⟨false, 0, 1⟩) := by
  rw [ha.nil, hb.nil]
  clear ha hb
  refine ⟨?_, ?_, ?_, ?_⟩
  · intro f hf
    simp only [List.mem_cons, List.not_mem_nil, or_false] at hf
    rcases hf with rfl | rfl | rfl | rfl <;> cases m <;> rfl
  · intro f hf
    simp only [List.mem_cons, List.not_mem_nil, or_false] at hf
    rcases hf with rfl | rfl | rfl <;> cases m <;> rfl
  · intro f hf
    simp only [List.mem_cons, List.not_mem_nil, or_false] at hf
    rcases hf with rfl | rfl | rfl <;> cases m <;> rfl
  · refine ⟨rfl, rfl, rfl, rfl, rfl, rfl, rfl, rfl, ?_, rfl, ?_, ?_, ?_, ?_⟩ <;> cases m <;> decide +kernel

theorem assignFromI64_nil (m : Mode) (v : Word) : Panics (assignFromI64 m ⟨0, []⟩ v) := by
  unfold assignFromI64
  simp only [clear, List.map_nil, List.length_nil, Nat.zero_ne_one, if_false]
  unfold Arith.signExtend
  cases hn : Arith.isNeg m [v] 64 with
  | panic p => cases m <;> exact ⟨p, rfl⟩
  | ok n => cases m <;> cases n <;> exact ⟨_, rfl⟩

/-- The operations that panic on 0-bit values, in both build modes. -/
theorem C82_panics (m : Mode) {a b : BitVecValue} {x y : BitVec 0} (ha : Denotes a x) (hb : Denotes b y) :
    (∀ f ∈ [add m, sub m, mul m, shiftLeft m, shiftRight m, arithmeticShiftRight m], Panics (f a b)) ∧
    (∀ f ∈ [not m, negate m, maskMsb m, assignOnes m], Panics (f a)) ∧
    (∀ f ∈ [isGreaterSigned m, isGreaterOrEqualSigned m, isLessSigned m, isLessOrEqualSigned m], Panics (f a b)) ∧
    Panics (a.isNegative m) ∧ Panics (a.toBitStrSigned m) ∧ Panics (a.toHexStrSigned m) ∧
    Panics (a.toSignedFixedPoint m 0) ∧ (∀ v, Panics (a.assignFromU64 m v)) ∧ (∀ v, Panics (a.assignFromI64 m v)) ∧
    (∀ k, Panics (a.setBit k) ∧ Panics (a.clearBit k) ∧ Panics (a.isBitSet k)) := by
  rw [ha.nil, hb.nil]
  clear ha hb
  refine ⟨?_, ?_, ?_, ?_⟩
  · intro f hf
    simp only [List.mem_cons, List.not_mem_nil, or_false] at hf
    rcases hf with rfl | rfl | rfl | rfl | rfl | rfl <;> cases m <;> exact ⟨_, rfl⟩
  · intro f hf
    simp only [List.mem_cons, List.not_mem_nil, or_false] at hf
    rcases hf with rfl | rfl | rfl | rfl <;> cases m <;> exact ⟨_, rfl⟩
  · intro f hf
    simp only [List.mem_cons, List.not_mem_nil, or_false] at hf
    rcases hf with rfl | rfl | rfl | rfl <;> cases m <;> exact ⟨_, rfl⟩
  · refine ⟨?_, ?_, ?_, ?_, fun v => ⟨_, rfl⟩, fun v => assignFromI64_nil m v, fun k => ⟨⟨_, rfl⟩, ⟨_, rfl⟩, ⟨_, rfl⟩⟩⟩ <;> cases m <;> exact ⟨_, rfl⟩

/-- The comparisons that give a wrong answer: `a >= a` and `a <= a` are false. -/
theorem C82_comparison_wrong (m : Mode) {a b : BitVecValue} {x y : BitVec 0} (ha : Denotes a x) (hb : Denotes b y) :
    a.isGreaterOrEqual m b = ok false ∧ a.isLessOrEqual m b = ok false := by
  rw [ha.nil, hb.nil]
  cases m <;> exact ⟨rfl, rfl⟩

/-- **C38**, width 0: both texts are empty, and the empty text is parsed to the value of zero bits. -/
theorem C38_width_zero (m m' : Mode) {a : BitVecValue} {x : BitVec 0} (ha : Denotes a x) :
    (∃ s, a.toHexStr m = ok s ∧ fromHexStr m' s = ok (.ok a)) ∧ (∃ s, a.toBitStr = ok s ∧ fromBitStr m' s = ok (.ok a)) := by
  rw [ha.nil]
  exact ⟨⟨[], by cases m <;> decide +kernel, by cases m' <;> decide +kernel⟩, ⟨[], by decide +kernel, by cases m' <;> decide +kernel⟩⟩

/-- The full claim is false: adding two 0-bit values panics. -/
theorem C82_refuted : ¬ C82_statement := by
  intro h
  have hd := (C82_sources .release).2.2.2.2
  obtain ⟨r, hr, -⟩ := (h .release _ _ _ _ hd hd).1 (add .release) (by simp)
  cases hr

/-- Adding two values that `From<&BigUint>` made from the number zero panics. -/
example : (do let a ← ofBigUint .release 0; let b ← ofBigUint .release 0; add .release a b) = panic .unwrap := by
  decide +kernel

end Baa
