import Verif.Props.Compare
import Verif.Props.Strings
import Verif.Model.Array

/-!
# C60, C62, C63: derived instances and conversions
-/

namespace Baa
open Res

/-! ## C60 Ord, Eq and Hash -/

theorem cmpWordsLex_refl (a : List Word) : BitVecValue.cmpWordsLex a a = .eq := by
  induction a with
  | nil => rfl
  | cons x a ih => simp [BitVecValue.cmpWordsLex, ih]

theorem cmpWordsLex_eq {a b : List Word} (h : BitVecValue.cmpWordsLex a b = .eq) : a = b := by
  induction a generalizing b with
  | nil => cases b <;> simp [BitVecValue.cmpWordsLex] at h ⊢
  | cons x a ih =>
    cases b with
    | nil => simp [BitVecValue.cmpWordsLex] at h
    | cons y b =>
      rw [BitVecValue.cmpWordsLex, Ordering.then_eq_eq, Nat.compare_eq_eq] at h
      rw [BitVec.eq_of_toNat_eq h.1, ih h.2]

theorem compare_swap (a b : Nat) : compare b a = (compare a b).swap := (Nat.compare_swap a b).symm

theorem then_swap (a b : Ordering) : (a.then b).swap = a.swap.then b.swap := by cases a <;> rfl

theorem cmpWordsLex_swap (a b : List Word) :
    BitVecValue.cmpWordsLex b a = (BitVecValue.cmpWordsLex a b).swap := by
  induction a generalizing b with
  | nil => cases b <;> rfl
  | cons x a ih =>
    cases b with
    | nil => rfl
    | cons y b => rw [BitVecValue.cmpWordsLex, BitVecValue.cmpWordsLex, then_swap, ← compare_swap, ih]

theorem then_eq_lt (a b : Ordering) : a.then b = .lt ↔ a = .lt ∨ (a = .eq ∧ b = .lt) := by cases a <;> simp [Ordering.then]

theorem cmpWordsLex_trans {a b c : List Word} (h1 : BitVecValue.cmpWordsLex a b = .lt)
    (h2 : BitVecValue.cmpWordsLex b c = .lt) : BitVecValue.cmpWordsLex a c = .lt := by
  induction a generalizing b c with
  | nil =>
    cases b with
    | nil => simp [BitVecValue.cmpWordsLex] at h1
    | cons y b => cases c <;> simp [BitVecValue.cmpWordsLex] at h2 ⊢
  | cons x a ih =>
    cases b with
    | nil => simp [BitVecValue.cmpWordsLex] at h1
    | cons y b =>
      cases c with
      | nil => simp [BitVecValue.cmpWordsLex] at h2
      | cons z c =>
        simp only [BitVecValue.cmpWordsLex, then_eq_lt, Nat.compare_eq_lt, Nat.compare_eq_eq] at h1 h2 ⊢
        rcases h1 with h1 | ⟨h1, h1'⟩ <;> rcases h2 with h2 | ⟨h2, h2'⟩
        · exact .inl (by omega)
        · exact .inl (by omega)
        · exact .inl (by omega)
        · exact .inr ⟨by omega, ih h1' h2'⟩

theorem cmp_lt_iff (a b : BitVecValue) :
    a.cmp b = .lt ↔ a.width < b.width ∨ (a.width = b.width ∧ BitVecValue.cmpWordsLex a.words b.words = .lt) := by
  rw [BitVecValue.cmp, then_eq_lt, Nat.compare_eq_lt, Nat.compare_eq_eq]

theorem cmp_eq_iff (a b : BitVecValue) : a.cmp b = .eq ↔ a = b := by
  constructor
  · intro h
    rw [BitVecValue.cmp, Ordering.then_eq_eq, Nat.compare_eq_eq] at h
    cases a
    cases b
    simp only at h
    rw [h.1, cmpWordsLex_eq h.2]
  · rintro rfl
    rw [BitVecValue.cmp, cmpWordsLex_refl]
    simp

/-- **C60**: the order of owned values is a total order (irreflexive, antisymmetric, transitive and total) whose equality
is the identity of values. -/
theorem C60_ord_total :
    (∀ a b : BitVecValue, a.cmp b = .eq ↔ a = b) ∧
    (∀ a b : BitVecValue, b.cmp a = (a.cmp b).swap) ∧
    (∀ a b c : BitVecValue, a.cmp b = .lt → b.cmp c = .lt → a.cmp c = .lt) := by
  refine ⟨cmp_eq_iff, ?_, ?_⟩
  · intro a b
    rw [BitVecValue.cmp, BitVecValue.cmp, then_swap, compare_swap, cmpWordsLex_swap]
  · intro a b c h1 h2
    rw [cmp_lt_iff] at *
    rcases h1 with h1 | ⟨h1, h1'⟩ <;> rcases h2 with h2 | ⟨h2, h2'⟩
    · exact .inl (by omega)
    · exact .inl (by omega)
    · exact .inl (by omega)
    · exact .inr ⟨by omega, cmpWordsLex_trans h1' h2'⟩

/-- **C60**: for values in normal form `==` returns (in both build modes), is true exactly when the order says `Equal`, and
exactly when the hash inputs agree. -/
theorem C60_eq_ord_hash (m : Mode) {a b : BitVecValue} (ha : Canonical a) (hb : Canonical b) :
    ∃ r, BitVecValue.eqOwned m a b = ok r ∧ (r = true ↔ a.cmp b = .eq) ∧ (r = true ↔ a.hashOwned = b.hashOwned) := by
  have hlen : a.width = b.width → a.words.length = b.words.length := fun h => by
    rw [ha.length_eq, hb.length_eq, h]
  refine ⟨b.width == a.width && b.words == a.words, ?_, ?_, ?_⟩
  · unfold BitVecValue.eqOwned
    rw [debugAssert_of, ok_bind]
    by_cases h : b.width = a.width
    · simp [h, hlen h.symm]
    · simp [h]
  · rw [cmp_eq_iff]
    cases a
    cases b
    simp only [Bool.and_eq_true, beq_iff_eq, BitVecValue.mk.injEq]
    exact ⟨fun h => ⟨h.1.symm, h.2.symm⟩, fun h => ⟨h.1.symm, h.2.symm⟩⟩
  · simp only [Bool.and_eq_true, beq_iff_eq, BitVecValue.hashOwned, BitVecValue.hashSlice, List.cons.injEq]
    constructor
    · rintro ⟨h1, h2⟩
      rw [h1, h2]
      exact ⟨rfl, rfl, rfl⟩
    · rintro ⟨h1, h2, h3⟩
      exact ⟨h1.symm, (List.map_inj_right (fun x y hxy => BitVec.eq_of_toNat_eq hxy)).mp h3.symm⟩

/-- **C60**: an owned value and its borrowed view produce the same hash input. -/
theorem C60_hash_owned_ref (a : BitVecValue) : a.hashOwned = a.hashRef := rfl

/-- For one-word values of the same width the order is the order of the numbers. (For wider values it is not; the source
says so in src/bv/owned.rs:13.) -/
theorem C60_cmp_narrow {w : Nat} (hw : 0 < w) (h64 : w ≤ 64) {a b : BitVecValue} {x y : BitVec w} (ha : Denotes a x)
    (hb : Denotes b y) : a.cmp b = compare x.toNat y.toNat := by
  obtain ⟨a0, ha0⟩ := List.length_eq_one_iff.mp (show a.words.length = 1 by rw [ha.length_eq]; omega)
  obtain ⟨b0, hb0⟩ := List.length_eq_one_iff.mp (show b.words.length = 1 by rw [hb.length_eq]; omega)
  have h1 := ha.val_eq
  have h2 := hb.val_eq
  rw [ha0, Arith.wordsVal_singleton] at h1
  rw [hb0, Arith.wordsVal_singleton] at h2
  rw [BitVecValue.cmp, ha.width_eq, hb.width_eq, ha0, hb0, BitVecValue.cmpWordsLex, BitVecValue.cmpWordsLex, h1, h2]
  simp

example : (encode 5#70).cmp (encode 6#70) = .lt ∧ (encode 5#70).cmp (encode 6#71) = .lt ∧
    (encode 5#70).hashOwned ≠ (encode 5#71).hashOwned := by decide

/-- 2^64 is ordered before 1 (as documented, the order is not by value) -/
example : (encode 0x10000000000000000#70).cmp (encode 1#70) = .lt := by decide

/-! ## C62 Value -/

/-- **C62**: converting a `Value` succeeds exactly when it wraps that kind, and returns the wrapped value. -/
theorem C62_value_conversion (v : Value) :
    (∀ a, v.toArray = .ok a ↔ v = .array a) ∧ (∀ b, v.toBitVec = .ok b ↔ v = .bitVec b) ∧
    (v.toArray = .error () ↔ ∃ b, v = .bitVec b) ∧ (v.toBitVec = .error () ↔ ∃ a, v = .array a) := by
  cases v <;> simp [Value.toArray, Value.toBitVec]

example : (Value.bitVec (encode 5#70)).toBitVec = .ok (encode 5#70) := rfl

/-- **C62**: a bit vector and an array are never equal, and two wrapped bit vectors are equal exactly when width and value
are. -/
theorem C62_value_eq (m : Mode) (env : HashEnv) {w v : Nat} {a b : BitVecValue} {x : BitVec w} {y : BitVec v}
    (ha : Denotes a x) (hb : Denotes b y) (t : ArrayValue) :
    Value.eq m env (.bitVec a) (.array t) = ok false ∧ Value.eq m env (.array t) (.bitVec a) = ok false ∧
    Value.eq m env (.bitVec a) (.bitVec b) = ok (decide (w = v ∧ x.toNat = y.toNat)) :=
  ⟨rfl, rfl, C15_eq_owned m ha hb⟩

/-! ## C63 Debug output and copies -/

/-- **C63**: the debug output of an owned value or reference returns, and it is the type's name around the binary digits of
the value, most significant first. -/
theorem C63_debug {w : Nat} {a : BitVecValue} {x : BitVec w} (ha : Denotes a x) :
    ∃ s, s.length = w ∧ (∀ k, k < w → s[k]? = some (if x.getLsbD (w - 1 - k) then ch '1' else ch '0')) ∧
      a.debugOwned = ok ("ValueOwned(".toList.map ch ++ s ++ [ch ')']) ∧
      a.debugRef = ok ("BitVecValueRef(".toList.map ch ++ s ++ [ch ')']) ∧
      a.debugMutRef = ok ("BitVecValueMutRef(".toList.map ch ++ s ++ [ch ')']) := by
  refine ⟨(List.range w).map fun k => if x.getLsbD (w - 1 - k) then ch '1' else ch '0', by simp, ?_, ?_, ?_, ?_⟩
  · intro k hk
    simp [hk]
  · rw [BitVecValue.debugOwned, C30_to_bit_str ha, ok_bind]
  · rw [BitVecValue.debugRef, C30_to_bit_str ha, ok_bind]
  · rw [BitVecValue.debugMutRef, C30_to_bit_str ha, ok_bind]

example : (encode 5#4).debugOwned = ok ("ValueOwned(0101)".toList.map ch) := by decide +kernel

end Baa
