import Verif.Props.Links
import Verif.Spec.PrefixSums

/-!
# C170: sums of ranges of cells
-/

namespace Baa
open Res

variable {w dw : Nat}

/-! ## The lowest one -/

theorem odd_split : ∀ n : Nat, 0 < n → ∃ k q, n = 2 ^ k * (2 * q + 1) := by
  intro n
  induction n using Nat.strongRecOn with
  | ind n ih =>
    intro h
    by_cases e : n % 2 = 1
    · exact ⟨0, n / 2, by rw [Nat.pow_zero, Nat.one_mul]; omega⟩
    · obtain ⟨k, q, h'⟩ := ih (n / 2) (by omega) (by omega)
      refine ⟨k + 1, q, ?_⟩
      rw [Nat.pow_succ, Nat.mul_right_comm, ← h']
      omega

theorem lowestBit_val {p : BitVec w} {k q : Nat} (h : p.toNat = 2 ^ k * (2 * q + 1)) : (p &&& -p).toNat = 2 ^ k := by
  have hk : k < w := by
    have lt := p.isLt
    rw [h] at lt
    exact (Nat.pow_lt_pow_iff_right (by decide)).1 (Nat.lt_of_le_of_lt (Nat.le_mul_of_pos_right _ (by omega)) lt)
  have low : ∀ j, j < k → p.getLsbD j = false := fun j hj => by
    rw [← BitVec.testBit_toNat, h, Nat.testBit_two_pow_mul, decide_eq_false (by omega), Bool.false_and]
  have bit : p.getLsbD k = true := by
    rw [← BitVec.testBit_toNat, h, Nat.testBit_two_pow_mul, decide_eq_true (Nat.le_refl _), Nat.sub_self, Bool.true_and, Nat.testBit_zero]
    exact decide_eq_true (by omega)
  have e : p &&& -p = BitVec.twoPow w k := by
    apply BitVec.eq_of_getLsbD_eq
    intro i hi
    rw [BitVec.getLsbD_and, BitVec.getLsbD_neg, BitVec.getLsbD_twoPow, decide_eq_true hk, decide_eq_true hi, Bool.true_and, Bool.true_and]
    by_cases c : i < k
    · rw [low i c, Bool.false_and, decide_eq_false (by omega)]
    · by_cases c' : k = i
      · subst c'
        have : ¬ ∃ j, j < k ∧ p.getLsbD j = true := fun ⟨j, h1, h2⟩ => by rw [low j h1] at h2; cases h2
        rw [decide_eq_false this, bit, decide_eq_true rfl]
        rfl
      · rw [decide_eq_true (⟨k, by omega, bit⟩ : ∃ j, j < i ∧ p.getLsbD j = true), decide_eq_false c']
        cases p.getLsbD i <;> rfl
  rw [e, BitVec.toNat_twoPow, Nat.mod_eq_of_lt (Nat.pow_lt_pow_right (by decide) hk)]

theorem parts (p : BitVec w) (h : p ≠ 0#w) : ∃ k q, p.toNat = 2 ^ k * (2 * q + 1) ∧ (p &&& -p).toNat = 2 ^ k ∧ k < w := by
  obtain ⟨k, q, e⟩ := odd_split p.toNat (Nat.pos_of_ne_zero fun e => h (BitVec.eq_of_toNat_eq (by simpa using e)))
  refine ⟨k, q, e, lowestBit_val e, ?_⟩
  have lt := p.isLt
  rw [e] at lt
  exact (Nat.pow_lt_pow_iff_right (by decide)).1 (Nat.lt_of_le_of_lt (Nat.le_mul_of_pos_right _ (by omega)) lt)

/-- The ranges that hold a number hold the next number of the loop, and the other way round. -/
theorem range_next {i j k l q r : Nat} (hi : i = 2 ^ l * (2 * r + 1)) (hj : j = 2 ^ k * (2 * q + 1)) (h : j < i) :
    i - 2 ^ l < j ↔ i - 2 ^ l < j + 2 ^ k ∧ j + 2 ^ k ≤ i := by
  have e : i - 2 ^ l = 2 ^ l * (2 * r) := by rw [hi, Nat.mul_add, Nat.mul_one, Nat.add_sub_cancel]
  have e' : j + 2 ^ k = 2 ^ k * (2 * q + 2) := by rw [hj, ← Nat.mul_succ]
  rw [e, e']
  by_cases c : k < l
  · obtain ⟨d, rfl⟩ : ∃ d, l = k + (d + 1) := ⟨l - k - 1, by omega⟩
    have pos := Nat.two_pow_pos k
    rw [hi, hj] at h
    rw [hi, hj]
    simp only [Nat.pow_add, Nat.pow_succ, Nat.mul_assoc] at h ⊢
    rw [Nat.mul_lt_mul_left pos] at h
    rw [Nat.mul_lt_mul_left pos, Nat.mul_lt_mul_left pos, Nat.mul_le_mul_left_iff pos]
    rw [Nat.mul_left_comm (2 ^ d) 2 (2 * r + 1)] at h ⊢
    rw [Nat.mul_left_comm (2 ^ d) 2 (2 * r)]
    omega
  · obtain ⟨d, rfl⟩ : ∃ d, k = l + d := ⟨k - l, by omega⟩
    have pos := Nat.two_pow_pos l
    rw [hi, hj] at h
    rw [hi, hj]
    rw [Nat.pow_add, Nat.mul_assoc] at h ⊢
    rw [Nat.mul_lt_mul_left pos] at h
    rw [Nat.mul_assoc, Nat.mul_lt_mul_left pos, Nat.mul_lt_mul_left pos, Nat.mul_le_mul_left_iff pos]
    have a1 : 2 ^ d * (2 * q + 2) = 2 * (2 ^ d * (q + 1)) := by
      rw [show 2 * q + 2 = 2 * (q + 1) by omega, Nat.mul_left_comm]
    omega

/-! ## Sums -/

theorem sumCells_update {A : BitVec w → BitVec dw} {p : BitVec w} {x : BitVec dw} {l : Nat} : ∀ {n : Nat}, l + n < 2 ^ w →
    sumCells (update A p (A p + x)) l n = sumCells A l n + if l < p.toNat ∧ p.toNat ≤ l + n then x else 0#dw
  | 0, _ => by
    rw [if_neg (by omega)]
    simp [sumCells]
  | n + 1, h => by
    have e : (BitVec.ofNat w (l + n + 1)).toNat = l + n + 1 := by rw [BitVec.toNat_ofNat, Nat.mod_eq_of_lt (by omega)]
    rw [sumCells, sumCells_update (by omega), sumCells]
    by_cases q : BitVec.ofNat w (l + n + 1) = p
    · have q' : p.toNat = l + n + 1 := by rw [← q, e]
      rw [q, update_at, if_neg (by omega), if_pos (by omega), BitVec.add_zero, BitVec.add_assoc]
    · have q' : p.toNat ≠ l + n + 1 := fun z => q (BitVec.eq_of_toNat_eq (by rw [e, z]))
      rw [update_away q]
      by_cases c : l < p.toNat ∧ p.toNat ≤ l + n
      · rw [if_pos c, if_pos (by omega), BitVec.add_assoc, BitVec.add_comm x, BitVec.add_assoc]
      · rw [if_neg c, if_neg (by omega), BitVec.add_zero, BitVec.add_zero]

theorem sumCells_append (A : BitVec w → BitVec dw) (n : Nat) : ∀ k : Nat, sumCells A 0 (n + k) = sumCells A 0 n + sumCells A n k
  | 0 => by simp [sumCells]
  | k + 1 => by
    rw [← Nat.add_assoc, sumCells, sumCells_append A n k, sumCells, Nat.zero_add, BitVec.add_assoc]

/-! ## Programs -/

theorem lowestBit_eq (m : Mode) (h0 : 0 < w) (hw : w < 2 ^ 32) (p : BitVec w) : lowestBit m (encode p) = ok (encode (p &&& -p)) := by
  obtain ⟨n, n1, n2⟩ := C08_negate m h0 (encode_denotes p hw)
  obtain ⟨r, r1, r2, -⟩ := C10_and m (encode_denotes p hw) n2
  rw [lowestBit, n1, ok_bind, r1, r2.eq_encode]

theorem low_le {j k q : Nat} (h : 2 ^ j ∣ 2 ^ k * (2 * q + 1)) : j ≤ k := by
  apply Nat.le_of_not_lt
  intro c
  have h' := Nat.dvd_trans (Nat.pow_dvd_pow 2 (show k + 1 ≤ j from c)) h
  rw [Nat.pow_succ] at h'
  have := Nat.dvd_of_mul_dvd_mul_left (Nat.two_pow_pos k) h'
  omega

/-- The next cell up. -/
theorem step_up {p : BitVec w} {k q : Nat} (e : p.toNat = 2 ^ k * (2 * q + 1)) (hk : k < w) (hl : (p &&& -p).toNat = 2 ^ k) :
    2 ^ (k + 1) ∣ (p + (p &&& -p)).toNat ∧ (p + (p &&& -p) = 0#w ∧ 2 ^ w ≤ p.toNat + 2 ^ k ∨
      p + (p &&& -p) ≠ 0#w ∧ (p + (p &&& -p)).toNat = p.toNat + 2 ^ k) := by
  have a : (p + (p &&& -p)).toNat = (p.toNat + 2 ^ k) % 2 ^ w := by rw [BitVec.toNat_add, hl]
  have d : 2 ^ (k + 1) ∣ p.toNat + 2 ^ k := ⟨q + 1, by rw [e, ← Nat.mul_succ, Nat.pow_succ, Nat.mul_assoc]; rfl⟩
  have le : p.toNat + 2 ^ k ≤ 2 ^ w := by
    have lt := p.isLt
    have s : 2 ^ w = 2 ^ k * 2 ^ (w - k) := by rw [← Nat.pow_add]; congr 1; omega
    rw [e, s, Nat.mul_lt_mul_left (Nat.two_pow_pos k)] at lt
    rw [e, s, ← Nat.mul_succ]
    exact Nat.mul_le_mul_left _ lt
  refine ⟨a ▸ (Nat.dvd_mod_iff (Nat.pow_dvd_pow 2 hk)).2 d, ?_⟩
  by_cases c : p.toNat + 2 ^ k = 2 ^ w
  · exact .inl ⟨BitVec.eq_of_toNat_eq (by rw [a, c, Nat.mod_self]; rfl), by omega⟩
  · rw [Nat.mod_eq_of_lt (by omega)] at a
    refine .inr ⟨fun z => ?_, a⟩
    rw [z] at a
    have := Nat.two_pow_pos k
    simp only [BitVec.toNat_ofNat, Nat.zero_mod] at a
    omega

/-- The next cell down. -/
theorem step_down {p : BitVec w} {k q : Nat} (e : p.toNat = 2 ^ k * (2 * q + 1)) (hl : (p &&& -p).toNat = 2 ^ k) :
    2 ^ (k + 1) ∣ (p - (p &&& -p)).toNat ∧ (p - (p &&& -p)).toNat = p.toNat - 2 ^ k ∧ 2 ^ k ≤ p.toNat := by
  have le : 2 ^ k ≤ p.toNat := by
    rw [e]
    exact Nat.le_mul_of_pos_right _ (by omega)
  have a : (p - (p &&& -p)).toNat = p.toNat - 2 ^ k := by
    rw [BitVec.toNat_sub_of_le (by rw [BitVec.le_def, hl]; exact le), hl]
  refine ⟨⟨q, ?_⟩, a, le⟩
  rw [a, e, Nat.mul_add, Nat.mul_one, Nat.add_sub_cancel, Nat.pow_succ, Nat.mul_assoc]

theorem addToSums_spec (m : Mode) (env : HashEnv) (h0 : 0 < w) {c : BitVecValue} {x : BitVec dw} (hc : Denotes c x) : ∀ (n j : Nat)
    {a : ArrayValue} {T : BitVec w → BitVec dw} (p : BitVec w), Means m (.arr w dw) a T → 2 ^ j ∣ p.toNat → j ≤ w → w < n + j →
    ∃ (r : ArrayValue) (U : BitVec w → BitVec dw), addToSums m env c n a (encode p) = ok (some r) ∧ Means m (.arr w dw) r U ∧
      ∀ i, i ≠ 0#w → U i = T i + if p ≠ 0#w ∧ i.toNat - (i &&& -i).toNat < p.toNat ∧ p.toNat ≤ i.toNat then x else 0#dw
  | 0, j, a, T, p, ha, hj, hj', hn => by omega
  | n + 1, j, a, T, p, ha, hj, hj', hn => by
    have hw : w < 2 ^ 32 := Nat.lt_of_le_of_lt ha.2.index_le (by decide)
    by_cases z : p = 0#w
    · refine ⟨a, T, ?_, ha, fun i _ => ?_⟩
      · rw [addToSums, isEnd_eq m hw, ok_bind, decide_eq_true z, if_pos rfl]
      · rw [if_neg (fun k => k.1 z), BitVec.add_zero]
    · obtain ⟨k, q, e, hl, hk⟩ := parts p z
      obtain ⟨y, y1, y2⟩ := C06_add m ha.2.data_pos (encode_denotes (T p) ha.2.data_lt) hc
      obtain ⟨b, b1, b2⟩ := ha.store_ex m env p (T p + x)
      obtain ⟨s, s1, s2⟩ := C06_add m h0 (encode_denotes p hw) (encode_denotes (p &&& -p) hw)
      obtain ⟨d, u⟩ := step_up e hk hl
      have jk := low_le (e ▸ hj)
      obtain ⟨r, U, r1, r2, r3⟩ := addToSums_spec m env h0 hc n (k + 1) (p + (p &&& -p)) b2 d (by omega) (by omega)
      refine ⟨r, U, ?_, r2, fun i hi => ?_⟩
      · rw [addToSums, isEnd_eq m hw, ok_bind, decide_eq_false z, if_neg Bool.false_ne_true, ha.select_eq, ok_bind, y1, ok_bind,
          y2.eq_encode, b1, ok_bind, lowestBit_eq m h0 hw, ok_bind, s1, ok_bind, s2.eq_encode, r1]
      · have pos := Nat.two_pow_pos k
        rw [r3 i hi]
        by_cases ip : i = p
        · subst ip
          have le : 2 ^ k ≤ i.toNat := by
            rw [e]
            exact Nat.le_mul_of_pos_right _ (by omega)
          rw [update_at, if_neg, BitVec.add_zero, if_pos ⟨z, by omega, Nat.le_refl _⟩]
          rcases u with u | u
          · exact fun h => h.1 u.1
          · omega
        · rw [update_away ip]
          congr 1
          have ne : i.toNat ≠ p.toNat := fun h => ip (BitVec.eq_of_toNat_eq h)
          obtain ⟨l, t, e', hl', hk'⟩ := parts i hi
          have lt := i.isLt
          have same : (p + (p &&& -p) ≠ 0#w ∧ i.toNat - (i &&& -i).toNat < (p + (p &&& -p)).toNat ∧ (p + (p &&& -p)).toNat ≤ i.toNat) ↔
              (p ≠ 0#w ∧ i.toNat - (i &&& -i).toNat < p.toNat ∧ p.toNat ≤ i.toNat) := by
            rw [hl']
            by_cases c : p.toNat < i.toNat
            · have rn := range_next e' e c
              rcases u with u | u
              · exact ⟨fun h => absurd u.1 h.1, fun h => by have := rn.1 h.2.1; omega⟩
              · rw [u.2]
                exact ⟨fun h => ⟨z, rn.2 h.2, by omega⟩, fun h => ⟨u.1, rn.1 h.2.1⟩⟩
            · rcases u with u | u
              · exact ⟨fun h => absurd u.1 h.1, fun h => by omega⟩
              · rw [u.2]
                exact ⟨fun h => by omega, fun h => by omega⟩
          by_cases c : p ≠ 0#w ∧ i.toNat - (i &&& -i).toNat < p.toNat ∧ p.toNat ≤ i.toNat
          · rw [if_pos c, if_pos (same.2 c)]
          · rw [if_neg c, if_neg (mt same.1 c)]

/-- **C170** Adding to a cell. -/
theorem C170_add (m : Mode) (env : HashEnv) (h0 : 0 < w) {a : ArrayValue} {A T : BitVec w → BitVec dw} (ha : Means m (.arr w dw) a T)
    (hs : HoldsSums A T) {i c : BitVecValue} {p : BitVec w} {x : BitVec dw} (hi : Denotes i p) (hc : Denotes c x) {n : Nat} (hn : w < n) :
    ∃ (r : ArrayValue) (U : BitVec w → BitVec dw), addToSums m env c n a i = ok (some r) ∧ Means m (.arr w dw) r U ∧
      HoldsSums (update A p (A p + x)) U := by
  obtain ⟨r, U, r1, r2, r3⟩ := addToSums_spec m env h0 hc n 0 p ha (Nat.one_dvd _) (Nat.zero_le _) hn
  refine ⟨r, U, by rw [hi.eq_encode, r1], r2, fun s hz => ?_⟩
  obtain ⟨k, q, e, hl, hk⟩ := parts s hz
  have le : 2 ^ k ≤ s.toNat := by
    rw [e]
    exact Nat.le_mul_of_pos_right _ (by omega)
  have lt := s.isLt
  rw [r3 s hz, hs s hz, sumCells_update (by omega)]
  congr 1
  have z : p = 0#w ↔ p.toNat = 0 := ⟨fun h => by rw [h]; simp, fun h => BitVec.eq_of_toNat_eq (by simpa using h)⟩
  have : (p ≠ 0#w ∧ s.toNat - (s &&& -s).toNat < p.toNat ∧ p.toNat ≤ s.toNat) ↔
      (s.toNat - (s &&& -s).toNat < p.toNat ∧ p.toNat ≤ s.toNat - (s &&& -s).toNat + (s &&& -s).toNat) := by
    rw [Ne, z]
    omega
  by_cases g : p ≠ 0#w ∧ s.toNat - (s &&& -s).toNat < p.toNat ∧ p.toNat ≤ s.toNat
  · rw [if_pos g, if_pos (this.1 g)]
  · rw [if_neg g, if_neg (mt this.2 g)]

theorem readSum_spec (m : Mode) (env : HashEnv) (h0 : 0 < w) {a : ArrayValue} {A T : BitVec w → BitVec dw} (ha : Means m (.arr w dw) a T)
    (hs : HoldsSums A T) : ∀ (n j : Nat) (p : BitVec w) (y : BitVec dw), 2 ^ j ∣ p.toNat → j ≤ w → w < n + j →
    readSum m env a n (encode p) (encode y) = ok (some (encode (y + sumCells A 0 p.toNat)))
  | 0, j, p, y, hj, hj', hn => by omega
  | n + 1, j, p, y, hj, hj', hn => by
    have hw : w < 2 ^ 32 := Nat.lt_of_le_of_lt ha.2.index_le (by decide)
    by_cases z : p = 0#w
    · rw [readSum, isEnd_eq m hw, ok_bind, decide_eq_true z, if_pos rfl, z]
      simp [sumCells]
    · obtain ⟨k, q, e, hl, hk⟩ := parts p z
      obtain ⟨t, t1, t2⟩ := C06_add m ha.2.data_pos (encode_denotes y ha.2.data_lt) (encode_denotes (T p) ha.2.data_lt)
      obtain ⟨s, s1, s2⟩ := C07_sub m h0 (encode_denotes p hw) (encode_denotes (p &&& -p) hw)
      obtain ⟨d, u, le⟩ := step_down e hl
      have jk := low_le (e ▸ hj)
      rw [readSum, isEnd_eq m hw, ok_bind, decide_eq_false z, if_neg Bool.false_ne_true, ha.select_eq, ok_bind, t1, ok_bind,
        lowestBit_eq m h0 hw, ok_bind, s1, ok_bind, s2.eq_encode, t2.eq_encode,
        readSum_spec m env h0 ha hs n (k + 1) (p - (p &&& -p)) (y + T p) d (by omega) (by omega), u, hs p z, hl]
      have := sumCells_append A (p.toNat - 2 ^ k) (2 ^ k)
      rw [Nat.sub_add_cancel le] at this
      rw [this, BitVec.add_assoc, BitVec.add_comm (sumCells A (p.toNat - 2 ^ k) (2 ^ k))]

/-- **C170** Reading a sum. -/
theorem C170_read (m : Mode) (env : HashEnv) (h0 : 0 < w) {a : ArrayValue} {A T : BitVec w → BitVec dw} (ha : Means m (.arr w dw) a T)
    (hs : HoldsSums A T) {i : BitVecValue} {p : BitVec w} (hi : Denotes i p) {n : Nat} (hn : w < n) :
    ∃ r, readSum m env a n i (BitVecValue.zero dw) = ok (some r) ∧ Denotes r (sumCells A 0 p.toNat) := by
  refine ⟨_, ?_, encode_denotes _ ha.2.data_lt⟩
  rw [hi.eq_encode, (C01_zero ha.2.data_lt).eq_encode, readSum_spec m env h0 ha hs n 0 p _ (Nat.one_dvd _) (Nat.zero_le _) hn, BitVec.zero_add]

theorem addAllToSums_spec (m : Mode) (env : HashEnv) (h0 : 0 < w) (hd : dw < 2 ^ 32) {n : Nat} (hn : w < n) (p : BitVec w) :
    ∀ (l : List (BitVec w × BitVec dw)) {a : ArrayValue} {A T : BitVec w → BitVec dw}, Means m (.arr w dw) a T → HoldsSums A T →
    ∃ (r : ArrayValue) (B U : BitVec w → BitVec dw), addAllToSums m env n a (l.map fun e => (encode e.1, encode e.2)) = ok (some r) ∧
      Means m (.arr w dw) r U ∧ HoldsSums B U ∧ sumCells B 0 p.toNat = sumCells A 0 p.toNat + addedUpTo p l
  | [], a, A, T, ha, hs => ⟨a, A, T, rfl, ha, hs, by simp [addedUpTo]⟩
  | (q, x) :: l, a, A, T, ha, hs => by
    have hw : w < 2 ^ 32 := Nat.lt_of_le_of_lt ha.2.index_le (by decide)
    obtain ⟨b, V, b1, b2, b3⟩ := C170_add m env h0 ha hs (encode_denotes q hw) (encode_denotes x hd) hn
    obtain ⟨r, B, U, r1, r2, r3, r4⟩ := addAllToSums_spec m env h0 hd hn p l b2 b3
    refine ⟨r, B, U, ?_, r2, r3, ?_⟩
    · rw [List.map_cons, addAllToSums, b1, ok_bind]
      exact r1
    · have lt := p.isLt
      rw [r4, sumCells_update (by omega), BitVec.add_assoc]
      congr 1
      have z : q = 0#w ↔ q.toNat = 0 := ⟨fun h => by rw [h]; simp, fun h => BitVec.eq_of_toNat_eq (by simpa using h)⟩
      by_cases c : q ≠ 0#w ∧ q.toNat ≤ p.toNat
      · rw [if_pos (by rw [Ne, z] at c; omega), addedUpTo, addedUpTo, List.filter_cons, if_pos (by exact decide_eq_true c)]
        rfl
      · rw [if_neg (by rw [Ne, z] at c; omega), addedUpTo, addedUpTo, List.filter_cons, if_neg (by exact fun h => c (of_decide_eq_true h)),
          BitVec.zero_add]

theorem holdsSums_zero : HoldsSums (fun _ : BitVec w => 0#dw) (fun _ => 0#dw) := by
  have : ∀ l n, sumCells (fun _ : BitVec w => 0#dw) l n = 0#dw := by
    intro l n
    induction n with
    | zero => rfl
    | succ n ih => rw [sumCells, ih, BitVec.add_zero]
  exact fun p _ => (this _ _).symm

/-- **C170** After any number of additions, starting from zeros everywhere, reading the sum up to `p` gives the sum of all that was added to
the cells from one to `p`. -/
theorem C170_sums (m : Mode) (env : HashEnv) (h0 : 0 < w) {a : ArrayValue} (ha : Means m (.arr w dw) a fun _ => 0#dw)
    (l : List (BitVec w × BitVec dw)) {i : BitVecValue} {p : BitVec w} (hi : Denotes i p) {n : Nat} (hn : w < n) :
    ∃ r v, addAllToSums m env n a (l.map fun e => (encode e.1, encode e.2)) = ok (some r) ∧
      readSum m env r n i (BitVecValue.zero dw) = ok (some v) ∧ Denotes v (addedUpTo p l) := by
  obtain ⟨r, B, U, r1, r2, r3, r4⟩ := addAllToSums_spec m env h0 ha.2.data_lt hn p l ha holdsSums_zero
  obtain ⟨v, v1, v2⟩ := C170_read m env h0 r2 r3 hi hn
  refine ⟨r, v, r1, v1, ?_⟩
  have z : ∀ n, sumCells (fun _ : BitVec w => 0#dw) 0 n = 0#dw := by
    intro n
    induction n with
    | zero => rfl
    | succ n ih => rw [sumCells, ih, BitVec.add_zero]
  rw [r4, z, BitVec.zero_add] at v2
  exact v2

/-! ## Not empty -/

example (m : Mode) : ∃ a, ArrayValue.newSparse 3 (encode 0#8) = ok a ∧ Means m (.arr 3 8) a (fun _ => 0#8) :=
  newSparse_means m (by decide) (by decide) (by decide) (encode_denotes 0#8 (by decide))

example : (do
    let a ← ArrayValue.newSparse 3 (encode 0#8)
    match ← addAllToSums .release listEnv 4 a [(encode 3#3, encode 10#8), (encode 5#3, encode 4#8), (encode 7#3, encode 1#8)] with
    | none => ok none
    | some a => readSum .release listEnv a 4 (encode 6#3) (encode 0#8)) = ok (some (encode 14#8)) := by decide +kernel

example : addedUpTo 6#3 [(3#3, 10#8), (5#3, 4#8), (7#3, 1#8)] = 14#8 := by decide

end Baa
