import Verif.Props.LongProducts
import Verif.Spec.LongQuotients

/-!
# C164: quotients of long numbers in memory
-/

namespace Baa
open Res

variable {iw dw : Nat}

theorem digitQuotient_spec (m : Mode) (h0 : 0 < dw) (h2 : dw + dw + 1 < 2 ^ 32) (r x z : BitVec dw) (hr : r.toNat < z.toNat) :
    ∃ q u : BitVec dw, digitQuotient m (encode r) (encode x) (encode z) = ok (encode q, encode u) ∧ u.toNat < z.toNat ∧
      2 ^ dw * r.toNat + x.toNat = q.toNat * z.toNat + u.toNat := by
  have hd : dw < 2 ^ 32 := by omega
  obtain ⟨t, t1, t2⟩ := C21_concat_partial m (encode_denotes r hd) (encode_denotes x hd) (by omega) (.inl ⟨h0, h0⟩)
  obtain ⟨z', z1, z2, -⟩ := C22_zero_extend_partial m (encode_denotes z hd) dw (by omega) (.inl h0)
  obtain ⟨k, rfl⟩ : ∃ k, dw = k + 1 := ⟨dw - 1, by omega⟩
  have ge : 2 ^ (k + 1) ≤ 2 ^ (k + 1 + (k + 1)) := Nat.pow_le_pow_right (by decide) (by omega)
  have hz : (z.setWidth (k + 1 + (k + 1))).toNat = z.toNat := by
    rw [BitVec.toNat_setWidth, Nat.mod_eq_of_lt (Nat.lt_of_lt_of_le z.isLt ge)]
  have zpos : 0 < z.toNat := by omega
  obtain ⟨q, u, d1, d2, -⟩ := C135_divide m (by omega) h2 t2 z2
  obtain ⟨q2, u2⟩ := d2 (fun w => by rw [w] at hz; simp at hz; omega)
  obtain ⟨q', q3, q4⟩ := C19_slice m q2 (msb := k) (lsb := 0) (by omega) (by omega)
  obtain ⟨u', u3, u4⟩ := C19_slice m u2 (msb := k) (lsb := 0) (by omega) (by omega)
  have ht : (r ++ x).toNat = 2 ^ (k + 1) * r.toNat + x.toNat := by
    rw [BitVec.toNat_append, ← Nat.shiftLeft_add_eq_or_of_lt x.isLt, Nat.shiftLeft_eq, Nat.mul_comm]
  have small : (2 ^ (k + 1) * r.toNat + x.toNat) / z.toNat < 2 ^ (k + 1) := by
    apply Nat.div_lt_of_lt_mul
    have hx := x.isLt
    have : 2 ^ (k + 1) * (r.toNat + 1) ≤ 2 ^ (k + 1) * z.toNat := Nat.mul_le_mul_left _ hr
    rw [Nat.mul_comm z.toNat]
    rw [Nat.mul_add] at this
    omega
  have um : (2 ^ (k + 1) * r.toNat + x.toNat) % z.toNat < z.toNat := Nat.mod_lt _ zpos
  have hzl := z.isLt
  refine ⟨BitVec.extractLsb' 0 (k + 1) ((r ++ x) / z.setWidth (k + 1 + (k + 1))),
    BitVec.extractLsb' 0 (k + 1) ((r ++ x) % z.setWidth (k + 1 + (k + 1))), ?_, ?_, ?_⟩
  · rw [digitQuotient]
    dsimp only
    rw [show (encode x).width = k + 1 from rfl, t1, ok_bind, z1, ok_bind, d1, ok_bind]
    dsimp only
    rw [show k + 1 - 1 = k by omega, q3, ok_bind, u3, ok_bind, q4.eq_encode, u4.eq_encode]
    rfl
  · rw [BitVec.extractLsb'_toNat, BitVec.toNat_umod, hz, ht, Nat.shiftRight_zero, Nat.mod_eq_of_lt (by omega)]
    exact um
  · rw [BitVec.extractLsb'_toNat, BitVec.extractLsb'_toNat, BitVec.toNat_umod, BitVec.toNat_udiv, hz, ht, Nat.shiftRight_zero,
      Nat.shiftRight_zero, Nat.mod_eq_of_lt small, Nat.mod_eq_of_lt (by omega), Nat.mul_comm _ z.toNat, Nat.div_add_mod]

theorem divCells_spec (m : Mode) (env : HashEnv) (h0 : 0 < iw) (h2 : dw + dw + 1 < 2 ^ 32) (z : BitVec dw) (d : BitVec iw) (n : Nat) :
    ∀ {a : ArrayValue} {f : BitVec iw → BitVec dw} (_ : Means m (.arr iw dw) a f) (r : BitVec dw), r.toNat < z.toNat → n ≤ 2 ^ iw →
    ∃ (b : ArrayValue) (g : BitVec iw → BitVec dw) (u : BitVec dw),
      divCells m env (encode z) (encode d) n a (encode r) = ok (b, encode u) ∧ Means m (.arr iw dw) b g ∧ SameOutside f g d n ∧
      u.toNat < z.toNat ∧
      limbsNumber (cellsFrom f d n) + 2 ^ (dw * n) * r.toNat = limbsNumber (cellsFrom g d n) * z.toNat + u.toNat := by
  induction n with
  | zero =>
    intro a f ha r hr _
    exact ⟨a, f, r, rfl, ha, fun _ _ => rfl, hr, by simp [cellsFrom, limbsNumber]⟩
  | succ n ih =>
    intro a f ha r hr hn
    have hi := ha.2.index_le
    obtain ⟨q, u, p1, p2, p3⟩ := digitQuotient_spec m ha.2.data_pos h2 r (f (d + BitVec.ofNat iw n)) z hr
    obtain ⟨a', a1, a2⟩ := ha.store_ex m env (d + BitVec.ofNat iw n) q
    obtain ⟨b, g, v, r1, r2, r3, r4, r5⟩ := ih a2 u p2 (by omega)
    have top : (d + BitVec.ofNat iw n - d).toNat = n := (sub_toNat_eq_iff (by omega)).2 rfl
    refine ⟨b, g, v, ?_, r2, ?_, r4, ?_⟩
    · rw [divCells, offsetBy_spec m h0 hi (encode_denotes d (by omega)) (by omega), ok_bind, ha.select_eq, ok_bind, p1, ok_bind]
      dsimp only
      rw [a1, ok_bind, r1]
    · intro j o
      have j3 : j ≠ d + BitVec.ofNat iw n := fun w => by rw [w, top] at o; omega
      rw [r3 j (by omega), update_away j3]
    · rw [cellsFrom_update (by omega) (by rw [top]; omega)] at r5
      rw [limbsNumber_last, limbsNumber_last, r3 _ (by rw [top]; omega), update_at, Nat.mul_succ, Nat.pow_add, Nat.add_mul]
      have e := congrArg (2 ^ (dw * n) * ·) p3
      simp only [Nat.mul_add] at e
      rw [Nat.mul_assoc, Nat.mul_assoc]
      omega

/-- **C164** Dividing a long number by a digit: the cells hold the quotient, and the remainder comes out. -/
theorem C164_divide (m : Mode) (env : HashEnv) (h0 : 0 < iw) (h2 : dw + dw + 1 < 2 ^ 32) {a : ArrayValue} {f : BitVec iw → BitVec dw}
    (ha : Means m (.arr iw dw) a f) {c p : BitVecValue} {z : BitVec dw} {d : BitVec iw} (hc : Denotes c z) (hz : z ≠ 0#dw)
    (hp : Denotes p d) {n : Nat} (hn : n ≤ 2 ^ iw) :
    ∃ (b : ArrayValue) (g : BitVec iw → BitVec dw) (v : BitVecValue) (u : BitVec dw),
      divCells m env c p n a (BitVecValue.zero dw) = ok (b, v) ∧ Means m (.arr iw dw) b g ∧ Denotes v u ∧
      (∀ j, ¬ (j - d).toNat < n → g j = f j) ∧
      limbsNumber (cellsFrom g d n) = limbsNumber (cellsFrom f d n) / z.toNat ∧
      u.toNat = limbsNumber (cellsFrom f d n) % z.toNat := by
  have hd : dw < 2 ^ 32 := ha.2.data_lt
  have zpos : 0 < z.toNat := Nat.pos_of_ne_zero fun w => hz (BitVec.eq_of_toNat_eq (by simpa using w))
  obtain ⟨b, g, u, r1, r2, r3, r4, r5⟩ := divCells_spec m env h0 h2 z d n ha 0#dw (by simpa using zpos) hn
  rw [show (0#dw).toNat = 0 by simp, Nat.mul_zero, Nat.add_zero] at r5
  refine ⟨b, g, encode u, u, ?_, r2, encode_denotes u hd, r3, ?_, ?_⟩
  · rw [hc.eq_encode, hp.eq_encode, (C01_zero (w := dw) hd).eq_encode, r1]
  · rw [r5, Nat.mul_comm, Nat.mul_add_div zpos, Nat.div_eq_of_lt r4, Nat.add_zero]
  · rw [r5, Nat.mul_comm, Nat.mul_add_mod, Nat.mod_eq_of_lt r4]

/-- **C164** Writing a long number to any base: the remainders are its digits, and the cells keep what is left above them. -/
theorem C164_digits (m : Mode) (env : HashEnv) (h0 : 0 < iw) (h2 : dw + dw + 1 < 2 ^ 32) {c p : BitVecValue} {z : BitVec dw} {d : BitVec iw}
    (hc : Denotes c z) (hz : z ≠ 0#dw) (hp : Denotes p d) {n : Nat} (hn : n ≤ 2 ^ iw) (k : Nat) :
    ∀ {a : ArrayValue} {f : BitVec iw → BitVec dw}, Means m (.arr iw dw) a f →
    ∃ (b : ArrayValue) (g : BitVec iw → BitVec dw) (us : List (BitVec dw)),
      baseCells m env c p n k a = ok (b, us.map encode) ∧ Means m (.arr iw dw) b g ∧
      (∀ j, ¬ (j - d).toNat < n → g j = f j) ∧
      us.map BitVec.toNat = baseDigits z.toNat (limbsNumber (cellsFrom f d n)) k ∧
      limbsNumber (cellsFrom g d n) = limbsNumber (cellsFrom f d n) / z.toNat ^ k := by
  induction k with
  | zero =>
    intro a f ha
    exact ⟨a, f, [], rfl, ha, fun _ _ => rfl, rfl, by simp⟩
  | succ k ih =>
    intro a f ha
    obtain ⟨b₁, g₁, v, u, r1, r2, r3, r4, r5, r6⟩ := C164_divide m env h0 h2 ha hc hz hp hn
    obtain ⟨b, g, us, s1, s2, s3, s4, s5⟩ := ih r2
    refine ⟨b, g, u :: us, ?_, s2, fun j o => by rw [s3 j o, r4 j o], ?_, ?_⟩
    · rw [baseCells, hc.width_eq, r1, ok_bind]
      dsimp only
      rw [s1, ok_bind, r3.eq_encode]
      rfl
    · rw [List.map_cons, s4, r6, r5, baseDigits, baseDigits, List.range_succ_eq_map, List.map_cons, List.map_map, Nat.pow_zero, Nat.div_one]
      congr 1
      apply List.map_congr_left
      intro i _
      rw [Function.comp, Nat.div_div_eq_div_mul, Nat.pow_succ, Nat.mul_comm]
    · rw [s5, r5, Nat.div_div_eq_div_mul, Nat.pow_succ, Nat.mul_comm]

/-- `12345 = 0x3039`, in two cells of eight bits; the decimal digits, the lowest one first. -/
example : (ArrayValue.newDense .debug 1 (encode 0x39#8) >>= fun a => a.store .debug listEnv (encode 1#1) (encode 0x30#8) >>= fun a =>
      baseCells .debug listEnv (encode 10#8) (encode 0#1) 2 6 a >>= fun r => ok r.2)
    = ok ([5#8, 4#8, 3#8, 2#8, 1#8, 0#8].map encode) := by
  decide +kernel

end Baa
