import Verif.Props.Smt
import Verif.Spec.BitScan

/-!
# C146: counting and finding bits
-/

namespace Baa
open Res

theorem popCount_list {w : Nat} {a : BitVecValue} {x : BitVec w} (ha : Denotes a x) :
    ∀ is : List Nat, (∀ i ∈ is, i < w) → popCount a is = ok (is.countP fun i => x.getLsbD i)
  | [], _ => rfl
  | i :: is, h => by
    rw [popCount, C24_is_bit_set ha (h i (List.mem_cons_self ..)), ok_bind,
      popCount_list ha is (fun j hj => h j (List.mem_cons_of_mem _ hj)), ok_bind, List.countP_cons]
    cases x.getLsbD i <;> rfl

/-- C146: looking at every bit counts the ones. -/
theorem C146_pop_count {w : Nat} {a : BitVecValue} {x : BitVec w} (ha : Denotes a x) : popCount a (List.range w) = ok (onesOf x) :=
  popCount_list ha _ fun _ h => List.mem_range.1 h

/-- A positive number is an odd number times a power of two. -/
theorem odd_part : ∀ n : Nat, 0 < n → ∃ k q, n = 2 ^ (k + 1) * q + 2 ^ k := by
  intro n
  induction n using Nat.strongRecOn with
  | _ n ih =>
    intro h
    by_cases e : n % 2 = 1
    · exact ⟨0, n / 2, by simp; omega⟩
    · obtain ⟨k, q, hk⟩ := ih (n / 2) (by omega) (by omega)
      refine ⟨k + 1, q, ?_⟩
      have : n = 2 * (n / 2) := by omega
      rw [this, hk, Nat.pow_succ 2 (k + 1), Nat.pow_succ 2 k]
      have : 2 ^ k * 2 * 2 * q = 2 * (2 ^ k * 2 * q) := by rw [Nat.mul_comm (2 ^ k * 2) 2, Nat.mul_assoc]
      omega

theorem testBit_odd_part (k q j : Nat) : (2 ^ (k + 1) * q + 2 ^ k).testBit j = if j < k + 1 then decide (j = k) else q.testBit (j - (k + 1)) := by
  rw [Nat.testBit_two_pow_mul_add _ (Nat.pow_lt_pow_succ (by decide)), Nat.testBit_two_pow]
  simp only [eq_comm]

theorem testBit_odd_part_sub (k q j : Nat) :
    (2 ^ (k + 1) * q + 2 ^ k - 1).testBit j = if j < k + 1 then decide (j < k) else q.testBit (j - (k + 1)) := by
  have hp := Nat.two_pow_pos k
  have hs : 2 ^ k < 2 ^ (k + 1) := Nat.pow_lt_pow_succ (by decide)
  rw [Nat.add_sub_assoc (by omega), Nat.testBit_two_pow_mul_add _ (by omega), Nat.testBit_two_pow_sub_one]

section Operators
variable (m : Mode) {w : Nat} {a : BitVecValue} {x : BitVec w}

/-- The bits of `x - 1` and `-x` around the lowest one of `x`. -/
theorem lowest_bits (hx : x ≠ 0#w) :
    ∃ k, k < w ∧ x.getLsbD k = true ∧ (∀ j, j < k → x.getLsbD j = false) ∧
      (∀ j, j < w → (x - 1#w).getLsbD j = if j < k then true else if j = k then false else x.getLsbD j) ∧
      (∀ j, j < w → (-x).getLsbD j = if j < k then false else if j = k then true else !x.getLsbD j) := by
  have h0 : 0 < x.toNat := Nat.pos_of_ne_zero fun h => hx (BitVec.eq_of_toNat_eq (by rw [h, BitVec.toNat_ofNat, Nat.zero_mod]))
  have hlt := x.isLt
  obtain ⟨k, q, hk⟩ := odd_part x.toNat h0
  have hw : 0 < w := by
    rcases Nat.eq_zero_or_pos w with e | e
    · subst e
      exact absurd (BitVec.eq_of_toNat_eq (by have := x.isLt; have := (0#0).isLt; omega)) hx
    · exact e
  have hb : ∀ j, x.getLsbD j = if j < k + 1 then decide (j = k) else q.testBit (j - (k + 1)) := fun j => by
    rw [← BitVec.testBit_toNat, hk, testBit_odd_part]
  have hs : (x - 1#w).toNat = x.toNat - 1 := by
    rw [BitVec.toNat_sub_of_le, BitVec.toNat_ofNat, Nat.mod_eq_of_lt (Nat.one_lt_two_pow (by omega))]
    rw [BitVec.le_def, BitVec.toNat_ofNat, Nat.mod_eq_of_lt (Nat.one_lt_two_pow (by omega))]
    exact h0
  have hd : ∀ j, (x - 1#w).getLsbD j = if j < k + 1 then decide (j < k) else q.testBit (j - (k + 1)) := fun j => by
    rw [← BitVec.testBit_toNat, hs, hk, testBit_odd_part_sub]
  have hkw : k < w := by
    have : 2 ^ k < 2 ^ w := by omega
    exact (Nat.pow_lt_pow_iff_right (by decide)).1 this
  have hd' : ∀ j, j < w → (x - 1#w).getLsbD j = if j < k then true else if j = k then false else x.getLsbD j := fun j _ => by
    rw [hd, hb]
    by_cases h1 : j < k
    · simp [h1, Nat.lt_succ_of_lt h1]
    · by_cases h2 : j = k
      · simp [h2]
      · simp [h1, h2, show ¬ j < k + 1 by omega]
  refine ⟨k, hkw, by rw [hb]; simp, fun j hj => ?_, hd', fun j hj => ?_⟩
  · rw [hb, if_pos (by omega), decide_eq_false (by omega)]
  · have : -x = ~~~(x - 1#w) := by rw [← BitVec.not_neg, BitVec.not_not]
    rw [this, BitVec.getLsbD_not, decide_eq_true hj, Bool.true_and, hd' j hj]
    by_cases h1 : j < k
    · simp [h1]
    · by_cases h2 : j = k
      · simp [h2]
      · simp [h1, h2]

theorem clearLowest_and (h0 : 0 < w) (ha : Denotes a x) : ∃ r, clearLowest m a = ok r ∧ Denotes r (x &&& (x - 1#w)) := by
  have hp := Nat.one_lt_two_pow (show w ≠ 0 by omega)
  obtain ⟨o, h1, h2⟩ := C01_from_u64 m h0 ha.width_lt 1#64 (by simpa using hp)
  have h2 : Denotes o 1#w := h2
  obtain ⟨r, h3, h4⟩ := C07_sub m h0 ha h2
  obtain ⟨s, h5, h6, -⟩ := C10_and m ha h4
  exact ⟨s, by rw [clearLowest, ha.width_eq, h1, ok_bind, h3, ok_bind, h5], h6⟩

/-- C146: `a & (a - 1)` is `a` without its lowest one. -/
theorem C146_clear_lowest (h0 : 0 < w) (ha : Denotes a x) :
    ∃ r z, clearLowest m a = ok r ∧ Denotes r (z : BitVec w) ∧ (x = 0#w → z = 0#w) ∧
      (x ≠ 0#w → ∃ k, k < w ∧ x.getLsbD k = true ∧ (∀ j, j < k → x.getLsbD j = false) ∧
        ∀ j, z.getLsbD j = (x.getLsbD j && decide (j ≠ k))) := by
  obtain ⟨r, h1, h2⟩ := clearLowest_and m h0 ha
  refine ⟨r, _, h1, h2, fun e => by rw [e, BitVec.zero_and], fun e => ?_⟩
  obtain ⟨k, hk, hb, hl, hs, -⟩ := lowest_bits e
  refine ⟨k, hk, hb, hl, fun j => ?_⟩
  by_cases hj : j < w
  · rw [BitVec.getLsbD_and, hs j hj]
    by_cases c1 : j < k
    · rw [hl j c1]; rfl
    · by_cases c2 : j = k
      · simp [c2]
      · simp [c1, c2]
  · rw [BitVec.getLsbD_of_ge _ _ (by omega), BitVec.getLsbD_of_ge _ _ (by omega)]; rfl

/-- C146: `a & -a` is the lowest one of `a` alone. -/
theorem C146_isolate_lowest (h0 : 0 < w) (ha : Denotes a x) :
    ∃ r z, isolateLowest m a = ok r ∧ Denotes r (z : BitVec w) ∧ (x = 0#w → z = 0#w) ∧
      (x ≠ 0#w → ∃ k, k < w ∧ x.getLsbD k = true ∧ (∀ j, j < k → x.getLsbD j = false) ∧ z = BitVec.twoPow w k) := by
  obtain ⟨n, h1, h2⟩ := C08_negate m h0 ha
  obtain ⟨r, h3, h4, -⟩ := C10_and m ha h2
  refine ⟨r, _, by rw [isolateLowest, h1, ok_bind, h3], h4, fun e => by rw [e, BitVec.zero_and], fun e => ?_⟩
  obtain ⟨k, hk, hb, hl, -, hs⟩ := lowest_bits e
  refine ⟨k, hk, hb, hl, BitVec.eq_of_getLsbD_eq fun j hj => ?_⟩
  rw [BitVec.getLsbD_and, hs j hj, BitVec.getLsbD_twoPow, decide_eq_true hk, Bool.true_and]
  by_cases c1 : j < k
  · rw [hl j c1, decide_eq_false (by omega)]; rfl
  · by_cases c2 : j = k
    · simp [c2, hb]
    · simp [c1, c2]; omega

theorem countP_remove (p q : Nat → Bool) (k : Nat) (hp : p k = true) (hq : ∀ j, q j = (p j && decide (j ≠ k))) :
    ∀ n, (List.range n).countP p = (List.range n).countP q + if k < n then 1 else 0
  | 0 => rfl
  | n + 1 => by
    rw [List.range_succ, List.countP_append, List.countP_append, countP_remove p q k hp hq n, List.countP_singleton, List.countP_singleton,
      hq n]
    by_cases e : n = k
    · subst e
      simp [hp]
    · by_cases e2 : k < n
      · simp [e, e2, show k < n + 1 by omega]; omega
      · simp [e, e2, show ¬ k < n + 1 by omega]

theorem onesOf_zero (w : Nat) : onesOf (0#w) = 0 := by
  rw [onesOf, List.countP_eq_zero]
  simp

/-- C146: removing the ones counts them, with any bound that is not below their number, such as the width. -/
theorem C146_pop_count_fast (h0 : 0 < w) : ∀ (fuel : Nat) {a : BitVecValue} {x : BitVec w}, Denotes a x → onesOf x ≤ fuel →
    popCountFast m fuel a = ok (onesOf x)
  | 0, _, _, _, hf => by rw [popCountFast, Nat.le_zero.1 hf]
  | fuel + 1, a, x, ha, hf => by
    rw [popCountFast, C25_is_zero ha]
    by_cases e : x = 0#w
    · rw [if_pos (decide_eq_true e), e, onesOf_zero]
    · rw [if_neg (by simpa using e)]
      obtain ⟨r, z, h1, h2, -, h3⟩ := C146_clear_lowest m h0 ha
      obtain ⟨k, hk, hb, -, hz⟩ := h3 e
      have hc : onesOf x = onesOf z + 1 := by
        have := countP_remove (fun i => x.getLsbD i) (fun i => z.getLsbD i) k hb hz w
        rw [if_pos hk] at this
        exact this
      rw [h1, ok_bind, C146_pop_count_fast h0 fuel h2 (by omega), ok_bind, hc]

/-- The number of ones is at most the width. -/
theorem onesOf_le (x : BitVec w) : onesOf x ≤ w := by
  have := List.countP_le_length (p := fun i => x.getLsbD i) (l := List.range w)
  rwa [List.length_range] at this

/-- C146: the test for powers of two. -/
theorem C146_is_power_of_two (h0 : 0 < w) (ha : Denotes a x) :
    ∃ t, isPowerOfTwo m a = ok t ∧ (t = true ↔ ∃ k, x.toNat = 2 ^ k) := by
  obtain ⟨r, z, h1, h2, h3, h4⟩ := C146_clear_lowest m h0 ha
  refine ⟨_, by rw [isPowerOfTwo, h1, ok_bind], ?_⟩
  rw [C25_is_zero ha, C25_is_zero h2, Bool.and_eq_true, Bool.not_eq_true', decide_eq_false_iff_not, decide_eq_true_eq]
  constructor
  · rintro ⟨e, hz⟩
    obtain ⟨k, hk, hb, hl, hj⟩ := h4 e
    refine ⟨k, ?_⟩
    have : x = BitVec.twoPow w k := BitVec.eq_of_getLsbD_eq fun j hjw => by
      rw [BitVec.getLsbD_twoPow, decide_eq_true hk, Bool.true_and]
      by_cases c : j = k
      · rw [c, hb, decide_eq_true rfl]
      · have := hj j
        rw [hz, BitVec.getLsbD_zero, decide_eq_true c, Bool.and_true] at this
        rw [← this, decide_eq_false (fun h => c h.symm)]
    rw [this, BitVec.toNat_twoPow, Nat.mod_eq_of_lt (Nat.pow_lt_pow_right (by decide) hk)]
  · rintro ⟨i, hi⟩
    have e : x ≠ 0#w := fun e => by
      rw [e, BitVec.toNat_ofNat, Nat.zero_mod] at hi
      exact absurd hi (Nat.ne_of_lt (Nat.two_pow_pos i))
    refine ⟨e, ?_⟩
    obtain ⟨k, hk, hb, hl, hj⟩ := h4 e
    have hbit : ∀ j, x.getLsbD j = decide (i = j) := fun j => by
      rw [← BitVec.testBit_toNat, hi, Nat.testBit_two_pow]
    rw [hbit, decide_eq_true_eq] at hb
    refine BitVec.eq_of_getLsbD_eq fun j _ => ?_
    rw [hj, hbit, BitVec.getLsbD_zero, ← Bool.not_eq_true, Bool.and_eq_true, decide_eq_true_eq, decide_eq_true_eq]
    omega

theorem highestOne_below (ha : Denotes a x) : ∀ n, n ≤ w → (∀ j, n ≤ j → x.getLsbD j = false) →
    highestOne a n = ok (if x = 0#w then none else some (Nat.log2 x.toNat))
  | 0, _, h => by
    rw [highestOne, if_pos (BitVec.eq_of_getLsbD_eq fun j _ => by rw [h j (Nat.zero_le _), BitVec.getLsbD_zero])]
  | n + 1, hn, h => by
    rw [highestOne, C24_is_bit_set ha (by omega), ok_bind]
    by_cases c : x.getLsbD n = true
    · rw [if_pos c]
      have e : x ≠ 0#w := fun e => by rw [e, BitVec.getLsbD_zero] at c; exact absurd c (by decide)
      rw [if_neg e]
      have h1 : 2 ^ n ≤ x.toNat := Nat.ge_two_pow_of_testBit (by rw [BitVec.testBit_toNat]; exact c)
      have h2 : x.toNat < 2 ^ (n + 1) := Nat.lt_pow_two_of_testBit _ fun j hj => by rw [BitVec.testBit_toNat]; exact h j hj
      have hp := Nat.two_pow_pos n
      have : Nat.log2 x.toNat = n := (Nat.log2_eq_iff (by omega)).2 ⟨h1, h2⟩
      rw [this]
    · rw [if_neg c]
      refine highestOne_below ha n (by omega) fun j hj => ?_
      rcases Nat.eq_or_lt_of_le hj with e | e
      · rw [← e]; simpa using c
      · exact h j e

/-- C146: the highest one is at the binary logarithm. -/
theorem C146_highest_one (ha : Denotes a x) : highestOne a w = ok (if x = 0#w then none else some (Nat.log2 x.toNat)) :=
  highestOne_below ha w (Nat.le_refl _) fun _ hj => BitVec.getLsbD_of_ge _ _ hj

theorem lowestOne_from (ha : Denotes a x) : ∀ n k, k + n = w → (∀ j, j < k → x.getLsbD j = false) →
    ∃ o, lowestOne a (List.range' k n) = ok o ∧ (o = none ↔ x = 0#w) ∧
      ∀ i, o = some i → x.getLsbD i = true ∧ ∀ j, j < i → x.getLsbD j = false
  | 0, k, hk, h => ⟨none, rfl, by
      simp only [true_iff]
      exact BitVec.eq_of_getLsbD_eq fun j hj => by rw [h j (by omega), BitVec.getLsbD_zero], fun i hi => by cases hi⟩
  | n + 1, k, hk, h => by
    rw [List.range'_succ, lowestOne, C24_is_bit_set ha (by omega), ok_bind]
    by_cases c : x.getLsbD k = true
    · rw [if_pos c]
      refine ⟨some k, rfl, ⟨fun e => (by cases e), fun e => ?_⟩, fun i hi => (by cases hi; exact ⟨c, h⟩)⟩
      rw [e, BitVec.getLsbD_zero] at c
      exact absurd c (by decide)
    · rw [if_neg c]
      refine lowestOne_from ha n (k + 1) (by omega) fun j hj => ?_
      rcases Nat.eq_or_lt_of_le (Nat.le_of_lt_succ hj) with e | e
      · rw [e]; simpa using c
      · exact h j e

/-- C146: the lowest one is at the largest power of two that divides the value. -/
theorem C146_lowest_one (ha : Denotes a x) :
    ∃ o, lowestOne a (List.range w) = ok o ∧ (o = none ↔ x = 0#w) ∧
      ∀ i, o = some i → 2 ^ i ∣ x.toNat ∧ ¬ 2 ^ (i + 1) ∣ x.toNat := by
  obtain ⟨o, h1, h2, h3⟩ := lowestOne_from ha w 0 (Nat.zero_add _) (fun j hj => absurd hj (Nat.not_lt_zero _))
  rw [← List.range_eq_range'] at h1
  refine ⟨o, h1, h2, fun i hi => ?_⟩
  obtain ⟨c, hl⟩ := h3 i hi
  constructor
  · rw [Nat.dvd_iff_mod_eq_zero]
    apply Nat.eq_of_testBit_eq
    intro j
    rw [Nat.testBit_mod_two_pow, Nat.zero_testBit, BitVec.testBit_toNat]
    by_cases hj : j < i
    · rw [hl j hj, Bool.and_false]
    · rw [decide_eq_false hj, Bool.false_and]
  · intro hd
    obtain ⟨q, hq⟩ := hd
    rw [← BitVec.testBit_toNat, hq, Nat.testBit_two_pow_mul, decide_eq_false (by omega), Bool.false_and] at c
    exact absurd c (by decide)

theorem reverseBits_from (ha : Denotes a x) : ∀ n k {r : BitVecValue} {z : BitVec w}, k + n = w → Denotes r z →
    (∀ j, z.getLsbD j = (x.reverse.getLsbD j && decide (w - k ≤ j))) →
    ∃ s, reverseBits a (List.range' k n) r = ok s ∧ Denotes s x.reverse
  | 0, k, r, z, hk, hr, hz => by
    refine ⟨r, rfl, ?_⟩
    have : z = x.reverse := BitVec.eq_of_getLsbD_eq fun j _ => by rw [hz, decide_eq_true (by omega), Bool.and_true]
    exact this ▸ hr
  | n + 1, k, r, z, hk, hr, hz => by
    rw [List.range'_succ, reverseBits, C24_is_bit_set ha (by omega), ok_bind, ha.width_eq]
    have hm : x.reverse.getLsbD (w - 1 - k) = x.getLsbD k := by
      rw [BitVec.getLsbD_reverse, BitVec.getMsbD_eq_getLsbD, decide_eq_true (by omega), Bool.true_and]
      congr 1
      omega
    by_cases c : x.getLsbD k = true
    · obtain ⟨s, z', h1, h2, h3⟩ := C24_set_bit hr (pos := w - 1 - k) (by omega)
      rw [if_pos c, h1, ok_bind]
      refine reverseBits_from ha n (k + 1) (by omega) h2 fun j => ?_
      rw [h3, hz]
      by_cases e : j = w - 1 - k
      · rw [e, hm, c, decide_eq_true rfl, decide_eq_true (show w - (k + 1) ≤ w - 1 - k by omega), Bool.or_true]; rfl
      · rw [decide_eq_false e, Bool.or_false]
        by_cases e2 : w - k ≤ j
        · rw [decide_eq_true e2, decide_eq_true (show w - (k + 1) ≤ j by omega)]
        · rw [decide_eq_false e2, decide_eq_false (show ¬ w - (k + 1) ≤ j by omega)]
    · rw [if_neg c, ok_bind]
      refine reverseBits_from ha n (k + 1) (by omega) hr fun j => ?_
      rw [hz]
      by_cases e : j = w - 1 - k
      · rw [e, hm, Bool.eq_false_iff.2 c]; rfl
      · by_cases e2 : w - k ≤ j
        · rw [decide_eq_true e2, decide_eq_true (show w - (k + 1) ≤ j by omega)]
        · rw [decide_eq_false e2, decide_eq_false (show ¬ w - (k + 1) ≤ j by omega)]

/-- C146: setting the mirrored positions reverses the bits. -/
theorem C146_reverse (ha : Denotes a x) : ∃ r, reverseBits a (List.range w) (BitVecValue.zero w) = ok r ∧ Denotes r x.reverse := by
  obtain ⟨r, h1, h2⟩ := reverseBits_from ha w 0 (Nat.zero_add _) (C01_zero ha.width_lt) fun j => by
    rw [BitVec.getLsbD_zero]
    by_cases hj : j < w
    · rw [decide_eq_false (by omega), Bool.and_false]
    · rw [BitVec.getLsbD_of_ge _ _ (by omega), Bool.false_and]
  exact ⟨r, by rw [List.range_eq_range']; exact h1, h2⟩

end Operators

example : popCount (encode (BitVec.allOnes 65 - 4#65)) (List.range 65) = ok 64 ∧
    popCountFast .debug 65 (encode (BitVec.allOnes 65 - 4#65)) = ok 64 ∧
    clearLowest .debug (encode (BitVec.twoPow 65 64 + 8#65)) = ok (encode (BitVec.twoPow 65 64)) ∧
    isolateLowest .debug (encode (BitVec.twoPow 65 64 + 8#65)) = ok (encode 8#65) ∧
    isPowerOfTwo .debug (encode (BitVec.twoPow 65 64)) = ok true ∧ isPowerOfTwo .debug (encode (3#65)) = ok false ∧
    isPowerOfTwo .debug (encode (0#65)) = ok false ∧
    highestOne (encode (BitVec.twoPow 65 64 + 8#65)) 65 = ok (some 64) ∧ lowestOne (encode (BitVec.twoPow 65 64 + 8#65)) (List.range 65) = ok (some 3) ∧
    reverseBits (encode (1#65)) (List.range 65) (BitVecValue.zero 65) = ok (encode (BitVec.twoPow 65 64)) := by decide +kernel

end Baa
