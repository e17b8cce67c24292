import Verif.Props.Sorting
import Verif.Spec.Limbs

/-!
# C158: long numbers in memory
-/

namespace Baa
open Res

variable {iw dw : Nat}

theorem carryValue_spec (m : Mode) (h0 : 0 < dw) (hd : dw < 2 ^ 32) (c : Bool) :
    ∃ r, carryValue m c dw = ok r ∧ Denotes r (BitVec.ofNat dw c.toNat) := by
  have h1 : 2 ^ 1 ≤ 2 ^ dw := Nat.pow_le_pow_right (by decide) h0
  cases c
  · exact C01_from_u64 m h0 hd 0#64 (by simpa using Nat.two_pow_pos dw)
  · exact C01_from_u64 m h0 hd 1#64 (by simp; omega)

theorem cellsFrom_succ (f : BitVec iw → BitVec dw) (d : BitVec iw) (n : Nat) :
    cellsFrom f d (n + 1) = f d :: cellsFrom f (d + 1#iw) n := by
  unfold cellsFrom
  rw [List.range_succ_eq_map, List.map_cons, List.map_map]
  congr 1
  · simp
  · apply List.map_congr_left
    intro k _
    simp only [Function.comp, Nat.succ_eq_add_one]
    rw [BitVec.add_assoc, BitVec.add_comm 1#iw]
    congr 2
    exact BitVec.ofNat_add ..

theorem offset_one (m : Mode) (h0 : 0 < iw) (hi : iw ≤ 64) (d : BitVec iw) : offsetBy m (encode d) 1 = ok (encode (d + 1#iw)) :=
  offsetBy_spec m h0 hi (encode_denotes d (by omega)) (Nat.one_lt_two_pow (by omega))

/-- The next cells do not contain the cell itself. -/
theorem next_outside {d : BitVec iw} {n : Nat} (hn : n + 1 ≤ 2 ^ iw) : ¬ (d - (d + 1#iw)).toNat < n := by
  have e : d - (d + 1#iw) = -1#iw := by grind
  rw [e, BitVec.neg_one_eq_allOnes, BitVec.toNat_allOnes]
  omega

theorem outside_succ {d j : BitVec iw} {n : Nat} (h : ¬ (j - d).toNat < n + 1) : j ≠ d ∧ ¬ (j - (d + 1#iw)).toNat < n := by
  refine ⟨?_, fun q => h ?_⟩
  · rintro rfl
    exact h (by simp)
  · have e : j - d = (j - (d + 1#iw)) + 1#iw := by grind
    rw [e, BitVec.toNat_add]
    have h1 : (1#iw).toNat ≤ 1 := by rw [BitVec.toNat_ofNat]; exact Nat.mod_le _ _
    exact Nat.lt_of_le_of_lt (Nat.mod_le _ _) (by omega)

theorem cellsFrom_update {f : BitVec iw → BitVec dw} {d s : BitVec iw} {x : BitVec dw} {n : Nat} (hn : n ≤ 2 ^ iw)
    (h : ¬ (d - s).toNat < n) : cellsFrom (update f d x) s n = cellsFrom f s n := by
  apply List.map_congr_left
  intro k hk
  have hk := List.mem_range.1 hk
  refine update_away fun e => h ?_
  rw [(sub_toNat_eq_iff (k := k) (by omega)).2 e.symm]
  exact hk

theorem addLimb {x y : BitVec dw} (h0 : 0 < dw) (c : Bool) :
    (x + y + BitVec.ofNat dw c.toNat).toNat +
      2 ^ dw * (decide ((x + y).toNat < x.toNat) || decide ((x + y + BitVec.ofNat dw c.toNat).toNat < (x + y).toNat)).toNat =
    x.toNat + y.toNat + c.toNat := by
  have hx := x.isLt
  have hy := y.isLt
  have h2 : 2 ^ 1 ≤ 2 ^ dw := Nat.pow_le_pow_right (by decide) h0
  have hc : c.toNat ≤ 1 := by cases c <;> decide
  have hcm : (BitVec.ofNat dw c.toNat).toNat = c.toNat := by rw [BitVec.toNat_ofNat, Nat.mod_eq_of_lt (by omega)]
  rw [BitVec.toNat_add, BitVec.toNat_add, hcm]
  generalize c.toNat = k at *
  generalize x.toNat = a at *
  generalize y.toNat = b at *
  generalize 2 ^ dw = M at *
  have e1 : (a + b) % M = if a + b < M then a + b else a + b - M := by
    by_cases q : a + b < M
    · rw [if_pos q, Nat.mod_eq_of_lt q]
    · rw [if_neg q, Nat.mod_eq_sub_mod (by omega), Nat.mod_eq_of_lt (by omega)]
  rw [e1]
  generalize hs : (if a + b < M then a + b else a + b - M) = s
  have hsM : s < M := by split at hs <;> omega
  have e2 : (s + k) % M = if s + k < M then s + k else s + k - M := by
    by_cases q : s + k < M
    · rw [if_pos q, Nat.mod_eq_of_lt q]
    · rw [if_neg q, Nat.mod_eq_sub_mod (by omega), Nat.mod_eq_of_lt (by omega)]
  rw [e2]
  by_cases q1 : s < a <;> by_cases q2 : (if s + k < M then s + k else s + k - M) < s <;>
    simp only [q1, q2, decide_true, decide_false, Bool.or_true, Bool.or_false, Bool.toNat_true, Bool.toNat_false] <;>
    split at hs <;> split at q2 <;> split <;> omega

theorem addCells_spec (m : Mode) (env : HashEnv) (h0 : 0 < iw) {b : ArrayValue} {h : BitVec iw → BitVec dw} (hb : Means m (.arr iw dw) b h)
    (n : Nat) : ∀ {a : ArrayValue} {f : BitVec iw → BitVec dw} (_ : Means m (.arr iw dw) a f) (d e : BitVec iw) (c : Bool), n ≤ 2 ^ iw →
    ∃ r g k, addCells m env b n (encode d) (encode e) a c = ok (r, k) ∧ Means m (.arr iw dw) r g ∧ SameOutside f g d n ∧
      limbsNumber (cellsFrom g d n) + 2 ^ (dw * n) * k.toNat =
        limbsNumber (cellsFrom f d n) + limbsNumber (cellsFrom h e n) + c.toNat := by
  induction n with
  | zero =>
    intro a f ha d e c _
    exact ⟨a, f, c, rfl, ha, fun _ _ => rfl, by simp [cellsFrom, limbsNumber]⟩
  | succ n ih =>
    intro a f ha d e c hn
    have d0 : 0 < dw := ha.2.data_pos
    have hd : dw < 2 ^ 32 := ha.2.data_lt
    have hi := ha.2.index_le
    obtain ⟨s, s1, s2⟩ := C06_add m d0 (encode_denotes (f d) hd) (encode_denotes (h e) hd)
    obtain ⟨v, v1, v2⟩ := carryValue_spec m d0 hd c
    obtain ⟨t, t1, t2⟩ := C06_add m d0 s2 v2
    obtain ⟨a', a1, a2⟩ := ha.store_ex m env d (f d + h e + BitVec.ofNat dw c.toNat)
    obtain ⟨r, g, k, r1, r2, r3, r4⟩ := ih a2 (d + 1#iw) (e + 1#iw)
      (decide ((f d + h e).toNat < (f d).toNat) || decide ((f d + h e + BitVec.ofNat dw c.toNat).toNat < (f d + h e).toNat)) (by omega)
    refine ⟨r, g, k, ?_, r2, ?_, ?_⟩
    · rw [addCells, ha.select_eq, ok_bind, hb.select_eq, ok_bind, s1, ok_bind, show (encode (f d)).width = dw from rfl, v1, ok_bind, t1, ok_bind,
        t2.eq_encode, a1, ok_bind, C16_is_less m s2 (encode_denotes (f d) hd), ok_bind, C16_is_less m (encode_denotes _ hd) s2, ok_bind,
        offset_one m h0 hi, ok_bind, offset_one m h0 hi, ok_bind, r1]
    · intro j q
      obtain ⟨q1, q2⟩ := outside_succ q
      rw [r3 j q2, update_away q1]
    · have o := next_outside (d := d) hn
      rw [cellsFrom_update (by omega) o] at r4
      have hg : g d = f d + h e + BitVec.ofNat dw c.toNat := by rw [r3 d o, update_at]
      rw [cellsFrom_succ, cellsFrom_succ, cellsFrom_succ, limbsNumber, limbsNumber, limbsNumber, hg, Nat.mul_succ, Nat.pow_add]
      have l := addLimb (x := f d) (y := h e) d0 c
      have r5 := congrArg (2 ^ dw * ·) r4
      simp only [Nat.mul_add] at r5
      rw [Nat.mul_comm (2 ^ (dw * n)), Nat.mul_assoc]
      omega

/-- **C158** The sum of two long numbers: what is left in memory, together with the carry, is the sum. -/
theorem C158_add (m : Mode) (env : HashEnv) (h0 : 0 < iw) {a b : ArrayValue} {f h : BitVec iw → BitVec dw} (ha : Means m (.arr iw dw) a f)
    (hb : Means m (.arr iw dw) b h) {p q : BitVecValue} {d e : BitVec iw} (hp : Denotes p d) (hq : Denotes q e) {n : Nat} (hn : n ≤ 2 ^ iw)
    (c : Bool) :
    ∃ r g k, addCells m env b n p q a c = ok (r, k) ∧ Means m (.arr iw dw) r g ∧ (∀ j, ¬ (j - d).toNat < n → g j = f j) ∧
      limbsNumber (cellsFrom g d n) + 2 ^ (dw * n) * k.toNat =
        limbsNumber (cellsFrom f d n) + limbsNumber (cellsFrom h e n) + c.toNat := by
  rw [hp.eq_encode, hq.eq_encode]
  exact addCells_spec m env h0 hb n ha d e c hn

theorem subLimb {x y : BitVec dw} (h0 : 0 < dw) (c : Bool) :
    (x - y - BitVec.ofNat dw c.toNat).toNat + y.toNat + c.toNat =
    x.toNat + 2 ^ dw * (decide (x.toNat < y.toNat) || decide ((x - y).toNat < c.toNat)).toNat := by
  have hx := x.isLt
  have hy := y.isLt
  have h2 : 2 ^ 1 ≤ 2 ^ dw := Nat.pow_le_pow_right (by decide) h0
  have hc : c.toNat ≤ 1 := by cases c <;> decide
  have hcm : (BitVec.ofNat dw c.toNat).toNat = c.toNat := by rw [BitVec.toNat_ofNat, Nat.mod_eq_of_lt (by omega)]
  rw [BitVec.toNat_sub, BitVec.toNat_sub, hcm]
  generalize c.toNat = k at *
  generalize x.toNat = a at *
  generalize y.toNat = b at *
  generalize 2 ^ dw = M at *
  have e1 : (M - b + a) % M = if a < b then M - b + a else a - b := by
    by_cases q : a < b
    · rw [if_pos q, Nat.mod_eq_of_lt (by omega)]
    · rw [if_neg q, Nat.mod_eq_sub_mod (by omega), Nat.mod_eq_of_lt (by omega)]
      omega
  rw [e1]
  generalize hs : (if a < b then M - b + a else a - b) = s
  have hsM : s < M := by split at hs <;> omega
  have e2 : (M - k + s) % M = if s < k then M - k + s else s - k := by
    by_cases q : s < k
    · rw [if_pos q, Nat.mod_eq_of_lt (by omega)]
    · rw [if_neg q, Nat.mod_eq_sub_mod (by omega), Nat.mod_eq_of_lt (by omega)]
      omega
  rw [e2]
  by_cases q1 : a < b <;> by_cases q2 : s < k <;>
    simp only [q1, q2, if_true, if_false, decide_true, decide_false, Bool.or_true, Bool.or_false, Bool.toNat_true, Bool.toNat_false] at hs ⊢ <;>
    omega

theorem subCells_spec (m : Mode) (env : HashEnv) (h0 : 0 < iw) {b : ArrayValue} {h : BitVec iw → BitVec dw} (hb : Means m (.arr iw dw) b h)
    (n : Nat) : ∀ {a : ArrayValue} {f : BitVec iw → BitVec dw} (_ : Means m (.arr iw dw) a f) (d e : BitVec iw) (c : Bool), n ≤ 2 ^ iw →
    ∃ r g k, subCells m env b n (encode d) (encode e) a c = ok (r, k) ∧ Means m (.arr iw dw) r g ∧ SameOutside f g d n ∧
      limbsNumber (cellsFrom g d n) + limbsNumber (cellsFrom h e n) + c.toNat =
        limbsNumber (cellsFrom f d n) + 2 ^ (dw * n) * k.toNat := by
  induction n with
  | zero =>
    intro a f ha d e c _
    exact ⟨a, f, c, rfl, ha, fun _ _ => rfl, by simp [cellsFrom, limbsNumber]⟩
  | succ n ih =>
    intro a f ha d e c hn
    have d0 : 0 < dw := ha.2.data_pos
    have hd : dw < 2 ^ 32 := ha.2.data_lt
    have hi := ha.2.index_le
    have h2 : 2 ^ 1 ≤ 2 ^ dw := Nat.pow_le_pow_right (by decide) d0
    have hc : c.toNat ≤ 1 := by cases c <;> decide
    have hcm : (BitVec.ofNat dw c.toNat).toNat = c.toNat := by rw [BitVec.toNat_ofNat, Nat.mod_eq_of_lt (by omega)]
    obtain ⟨s, s1, s2⟩ := C07_sub m d0 (encode_denotes (f d) hd) (encode_denotes (h e) hd)
    obtain ⟨v, v1, v2⟩ := carryValue_spec m d0 hd c
    obtain ⟨t, t1, t2⟩ := C07_sub m d0 s2 v2
    obtain ⟨a', a1, a2⟩ := ha.store_ex m env d (f d - h e - BitVec.ofNat dw c.toNat)
    obtain ⟨r, g, k, r1, r2, r3, r4⟩ := ih a2 (d + 1#iw) (e + 1#iw)
      (decide ((f d).toNat < (h e).toNat) || decide ((f d - h e).toNat < c.toNat)) (by omega)
    refine ⟨r, g, k, ?_, r2, ?_, ?_⟩
    · rw [subCells, ha.select_eq, ok_bind, hb.select_eq, ok_bind, s1, ok_bind, show (encode (f d)).width = dw from rfl, v1, ok_bind, t1, ok_bind,
        t2.eq_encode, a1, ok_bind, C16_is_less m (encode_denotes (f d) hd) (encode_denotes (h e) hd), ok_bind, C16_is_less m s2 v2, ok_bind,
        offset_one m h0 hi, ok_bind, offset_one m h0 hi, ok_bind, hcm, r1]
    · intro j q
      obtain ⟨q1, q2⟩ := outside_succ q
      rw [r3 j q2, update_away q1]
    · have o := next_outside (d := d) hn
      rw [cellsFrom_update (by omega) o] at r4
      have hg : g d = f d - h e - BitVec.ofNat dw c.toNat := by rw [r3 d o, update_at]
      rw [cellsFrom_succ, cellsFrom_succ, cellsFrom_succ, limbsNumber, limbsNumber, limbsNumber, hg, Nat.mul_succ, Nat.pow_add]
      have l := subLimb (x := f d) (y := h e) d0 c
      have r5 := congrArg (2 ^ dw * ·) r4
      simp only [Nat.mul_add] at r5
      rw [Nat.mul_comm (2 ^ (dw * n)), Nat.mul_assoc]
      omega

/-- **C158** The difference of two long numbers. -/
theorem C158_sub (m : Mode) (env : HashEnv) (h0 : 0 < iw) {a b : ArrayValue} {f h : BitVec iw → BitVec dw} (ha : Means m (.arr iw dw) a f)
    (hb : Means m (.arr iw dw) b h) {p q : BitVecValue} {d e : BitVec iw} (hp : Denotes p d) (hq : Denotes q e) {n : Nat} (hn : n ≤ 2 ^ iw)
    (c : Bool) :
    ∃ r g k, subCells m env b n p q a c = ok (r, k) ∧ Means m (.arr iw dw) r g ∧ (∀ j, ¬ (j - d).toNat < n → g j = f j) ∧
      limbsNumber (cellsFrom g d n) + limbsNumber (cellsFrom h e n) + c.toNat =
        limbsNumber (cellsFrom f d n) + 2 ^ (dw * n) * k.toNat := by
  rw [hp.eq_encode, hq.eq_encode]
  exact subCells_spec m env h0 hb n ha d e c hn

/-- Three digits of eight bits, across the end of the memory: `0xfffe01 + 0x0201ff = 0x020000` and carry. -/
example : (ArrayValue.newDense .debug 2 (encode 7#8) >>= fun a => ArrayValue.newSparse 2 (encode 0#8) >>= fun b =>
      storeCells .debug listEnv a (encode 2#2) ([0x01#8, 0xfe#8, 0xff#8].map encode) >>= fun a =>
      storeCells .debug listEnv b (encode 0#2) ([0xff#8, 0x01#8, 0x02#8].map encode) >>= fun b =>
      addCells .debug listEnv b 3 (encode 2#2) (encode 0#2) a false >>= fun r =>
      subCells .debug listEnv b 3 (encode 2#2) (encode 0#2) r.1 false >>= fun s =>
      loadCells .debug listEnv r.1 (encode 2#2) 4 >>= fun x => loadCells .debug listEnv s.1 (encode 2#2) 4 >>= fun y => ok (x, r.2, y, s.2))
    = ok ([0x00#8, 0x00#8, 0x02#8, 7#8].map encode, true, [0x01#8, 0xfe#8, 0xff#8, 7#8].map encode, true) := by
  decide +kernel

end Baa
